import Verif.SegHead.SpliceProps

/-! C55: when a segment can be cut out of a document for a window that may have no begin. -/
namespace Verif.SegHead

open Verif.Doc hiding Name
open Verif.Style Verif.Time

/-- **C55.** Exactly when a segment can be cut out of a valid document, for a window `[wb, we)` or one without a begin in which the document
shows something (below a hundred hours on a clock): its head has a styling and a layout, and whatever an element refers to that overlaps the
window with all it is nested in is in use in the window.

Missing: windows without a begin in which nothing is shown; without an end there is `Doc.C28_false_open_end`. The document is `Regular`. -/
theorem C55_shown_partial (d : HDoc) (hreg : Regular d) (infos : List RInfo) (n : Node Full) (hv : d.validate = .ok (infos, n))
    (wb : Option Int) (we : Int) (hbase : d.base = .media ∨ d.base = .clock ∧ we < 100 * 3600000000) (pre : Option Nat)
    (t : Int) (ht : Win.at ⟨wb, some we⟩ t = true) (hshown : piecesOf d t ≠ []) :
    (∃ s, d.extract ⟨wb, some we⟩ pre = .ok s) ↔ d.styling = true ∧ d.layout = true ∧ Backed wb we n := by
  obtain ⟨_, _, hlab, _, hatt⟩ := validate_ok hv
  obtain ⟨a, ks, hbody, hk⟩ := hreg.sane.body
  have hcov : Cov (mapN Full.lab n) := by rw [hlab]; exact Doc.cov_times hreg.sane hreg.wellTimed
  have hp : piecesOf d t = piecesAt n t := by
    unfold piecesOf
    rw [hv]
  have hne : shownAt (mapN Full.lab n) t ≠ [] := by
    intro hnil
    exact hshown (by rw [hp]; exact pieces_nil hnil)
  have hlt : ∀ b, wb = some b → b < we := by
    intro b hb
    simp only [Win.at, hb, Bool.and_eq_true, decide_eq_true_eq] at ht
    omega
  cases n with
  | text s => rw [hbody] at hatt; simp [mapN] at hatt
  | br => rw [hbody] at hatt; simp [mapN] at hatt
  | elem x kids =>
    constructor
    · rintro ⟨s, hs⟩
      obtain ⟨h1, h2, _, h4⟩ := backed_of_extract hv hlt hs
      exact ⟨h1, h2, h4⟩
    · rintro ⟨hst, hla, hbk⟩
      have hover : Doc.Overlaps ⟨wb, some we⟩ x.comp = true := by
        cases ho : Doc.Overlaps ⟨wb, some we⟩ x.comp with
        | true => rfl
        | false =>
          exfalso
          apply hne
          rw [mapN] at hcov ⊢
          exact Doc.not_overlaps_shown hcov rfl ho ht
      rcases backed_cases d hst hla ⟨a, ks, hbody, hk⟩ infos _ hv wb we hlt hbase
        (by
          intro y hy
          simp only [rootOf, List.mem_singleton] at hy
          rw [hy]
          exact hover) hbk pre with h | ⟨a', hnode, ha'⟩
      · exact h
      · exact absurd (Doc.empty_shown hcov (by rw [erase_mapN, hatt]; exact hreg.shaped)
          (by rw [erase_mapN, hatt]; exact hreg.unmixed) ha' hnode ht) hne

/-- A line from 1 s to 8 s, and one from 6 s to 8 s in a div with a style that begins at 1 s. -/
def exSoon (st : List Name) : HDoc := docOf (.elem { kind := .body } [.elem { kind := .div } [line none st 1 8 "c"],
  .elem { kind := .div, style := ["s".toList], beg := some ⟨"1".toList, 1000000⟩ } [line none [] 5 7 "b"]])

/-- Both happen in a window without a begin: with the style in use by the first line there is a segment, without it there is none. -/
example : (∀ st ∈ [["s".toList], []], Regular (exSoon st) ∧ (exSoon st).validate.toOption.isSome = true ∧ (exSoon st).base = .media ∧
      (piecesOf (exSoon st) 2000000).isEmpty = false) ∧
    ((exSoon ["s".toList]).extract ⟨none, some 5000000⟩ none).toOption.isSome = true ∧
    ((exSoon []).extract ⟨none, some 5000000⟩ none).toOption.isSome = false := by
  refine ⟨?_, by decide +kernel, by decide +kernel⟩
  intro st hst
  simp only [List.mem_cons, List.not_mem_nil, or_false] at hst
  rcases hst with rfl | rfl <;>
    exact ⟨⟨Time.exactReader_accurate, by decide, by decide, by decide, Doc.sane_of rfl (by decide) (by decide), by decide, by decide,
      by decide +kernel, by decide, by decide⟩, by decide +kernel, rfl, by decide +kernel⟩

end Verif.SegHead
