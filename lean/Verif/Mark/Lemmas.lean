import Verif.Mark.Spec
import Verif.Doc.SegmentTidy

/-!
# Forgetting the marks

The functions of `Verif.Mark.Model` are those of `Verif.Doc.Segment`, `Verif.Doc.Splice` and `Verif.Convert.Model` when the
four attributes are forgotten.
-/
namespace Verif.Mark

open Verif.Doc (Node Att Kind Lab Comp Win Env SErr Item Overlaps bind_ok)
open Verif.SegHead (mapN mapNL mapNL_append)

/-- Forget the marks. -/
abbrev forget {α : Type} : Node (α × Marks) → Node α := mapN Prod.fst
abbrev forgetL {α : Type} : List (Node (α × Marks)) → List (Node α) := mapNL Prod.fst

/-! ### Segmentation -/

mutual
theorem forget_segNode (v : Env) : ∀ n : Node (Lab × Marks),
    Doc.segNode v (forget n) = (segNode v n).map (Option.map forget)
  | .text s => rfl
  | .br => rfl
  | .elem x kids => by
    simp only [forget, mapN, Doc.segNode, segNode]
    have ih := forget_segList v kids
    simp only [forgetL] at ih
    rw [ih]
    split
    · cases Doc.copyAtt v x.1.att with
      | error e => rfl
      | ok a =>
        cases segList v kids with
        | error e => rfl
        | ok ks =>
          simp only [Except.map, bind, Except.bind]
          split
          · rfl
          · cases Doc.leafTiming v x.1.comp a (mapNL Prod.fst ks) with
            | error e => rfl
            | ok a' => rfl
    · rfl
theorem forget_segList (v : Env) : ∀ ns : List (Node (Lab × Marks)),
    Doc.segList v (forgetL ns) = (segList v ns).map forgetL
  | [] => rfl
  | k :: ks => by
    simp only [forgetL, mapNL, Doc.segList, segList]
    have h1 := forget_segNode v k
    have h2 := forget_segList v ks
    simp only [forget, forgetL] at h1 h2
    rw [h1, h2]
    cases segNode v k with
    | error e => rfl
    | ok o =>
      cases segList v ks with
      | error e => rfl
      | ok rest =>
        simp only [Except.map, bind, Except.bind, pure, Except.pure]
        rw [mapNL_append]
        cases o <;> rfl
end

/-- Forgetting the marks, a segment is that of `Verif.Doc.Segment`. -/
theorem forget_segment (v : Env) (n : Node (Lab × Marks)) : Doc.segment v (forget n) = (segment v n).map forget := by
  unfold Doc.segment segment
  rw [forget_segNode]
  cases segNode v n with
  | error e => rfl
  | ok o =>
    cases o with
    | none => rfl
    | some m =>
      cases m with
      | text s => rfl
      | br => rfl
      | elem a ks =>
        cases ks with
        | cons k ks => rfl
        | nil =>
          simp only [Except.map, bind, Except.bind, Option.map, forget, mapN, mapNL]
          cases Doc.stamp v v.win.b with
          | error e => rfl
          | ok b =>
            cases Doc.stamp v v.win.e with
            | error e => rfl
            | ok e => rfl

/-! ### Splicing -/

mutual
theorem forget_renameNode : ∀ (n : Node (Att × Marks)) (ids : List Doc.Name),
    Doc.renameNode ids (forget n) = ((renameNode ids n).1, forget (renameNode ids n).2)
  | .text s, ids => rfl
  | .br, ids => rfl
  | .elem a kids, ids => by
    have ih := forget_renameList kids ids
    simp only [forgetL] at ih
    simp only [forget, mapN, Doc.renameNode, renameNode]
    rw [ih]
    cases a.1.id <;> rfl
theorem forget_renameList : ∀ (ns : List (Node (Att × Marks))) (ids : List Doc.Name),
    Doc.renameList ids (forgetL ns) = ((renameList ids ns).1, forgetL (renameList ids ns).2)
  | [], ids => rfl
  | k :: ks, ids => by
    have h1 := forget_renameNode k ids
    have h2 := forget_renameList ks (renameNode ids k).1
    simp only [forget, forgetL] at h1 h2
    simp only [forgetL, mapNL, Doc.renameList, renameList, h1, h2]
end

theorem forget_contentOf (n : Node (Att × Marks)) : Doc.contentOf (forget n) = forgetL (contentOf n) := by
  cases n <;> rfl

theorem forget_mergeBody (ids : List Doc.Name) (a b : Node (Att × Marks)) :
    Doc.mergeBody ids (forget a) (forget b) = ((mergeBody ids a b).1, forget (mergeBody ids a b).2) := by
  have ha : (mergedAtt a).1 = Doc.mergedAtt (forget a) := by cases a <;> rfl
  simp only [Doc.mergeBody, mergeBody, forget_contentOf, forget_renameList, forget, mapN, mapNL_append, ha]

/-- A segment without its marks. -/
def Part.forget (p : Part) : Doc.SDoc := ⟨p.styles, p.regions, Mark.forget p.doc.body⟩

theorem forget_mergeDoc (st : List Doc.Name × Part) (d : Part) :
    Doc.mergeDoc (st.1, st.2.forget) d.forget = ((mergeDoc st d).1, (mergeDoc st d).2.forget) := by
  simp only [Doc.mergeDoc, mergeDoc, Part.forget, forget_mergeBody]

/-- Forgetting the marks, splicing is that of `Verif.Doc.Splice`. -/
theorem forget_splice (ps : List Part) : Doc.splice (ps.map Part.forget) = (splice ps).map Part.forget := by
  cases ps with
  | nil => rfl
  | cons p ps =>
    simp only [List.map_cons, Doc.splice, splice, Option.map_some, Option.some.injEq]
    have : ∀ (ps : List Part) (st : List Doc.Name × Part),
        (ps.map Part.forget).foldl Doc.mergeDoc (st.1, st.2.forget) =
          ((ps.foldl mergeDoc st).1, (ps.foldl mergeDoc st).2.forget) := by
      intro ps
      induction ps with
      | nil => intro st; rfl
      | cons q ps ih => intro st; rw [List.map_cons, List.foldl_cons, List.foldl_cons, forget_mergeDoc, ih]
    rw [this ps ([], p)]

/-! ### Conversion -/

mutual
theorem forget_conv (m : Convert.Media) : ∀ n : Node (Att × Marks), Convert.conv m (forget n) = (conv m n).map forget
  | .text s => rfl
  | .br => rfl
  | .elem a kids => by
    have ih := forget_convL m kids
    simp only [forgetL] at ih
    simp only [forget, mapN, Convert.conv, conv]
    rw [ih]
    cases convL m kids with
    | error e => rfl
    | ok ks =>
      cases Convert.convAtt m a.1 with
      | error e => rfl
      | ok a' =>
        simp only [Except.map, bind, Except.bind]
        split <;> rfl
theorem forget_convL (m : Convert.Media) : ∀ ns : List (Node (Att × Marks)), Convert.convL m (forgetL ns) = (convL m ns).map forgetL
  | [] => rfl
  | k :: ks => by
    have h1 := forget_conv m k
    have h2 := forget_convL m ks
    simp only [forget, forgetL] at h1 h2
    simp only [forgetL, mapNL, Convert.convL, convL]
    rw [h1, h2]
    cases conv m k with
    | error e => rfl
    | ok k' => cases convL m ks <;> rfl
end

/-- Forgetting the marks, conversion of the body is that of `Verif.Convert.Model`. -/
theorem forget_convert (m : Convert.Media) (d : MDoc Att) :
    Convert.convertBody m (forget d.body) = (convert m d).map (fun o => o.body.map forget) := by
  unfold Convert.convertBody convert
  simp only [forget]
  split
  · rw [forget_conv]
    cases conv m d.body <;> rfl
  · rfl

end Verif.Mark
