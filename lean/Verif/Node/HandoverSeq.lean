import Verif.Node.HandoverProps
import Verif.Seq.NoFail

/-
Lemmas for C91: the output of the handover node as the history of a consumer's sequence.
-/
namespace Verif.Node

open Verif

variable {α : Type}

/-- A fitting document with a new greatest number, of the group the sequence knows or takes over, passes the compatibility check. -/
theorem compat_of_fits {s : Seq.State} {d : Seq.Doc} {g : Option String} (hf : Seq.Fits s.cfg d) (hn : ∀ x ∈ s.docs, x.num < d.num)
    (hd : d.agid = g) (hs : s.agid = none ∨ s.agid = g) :
    ∃ r, Seq.checkCompat s d = .ok r ∧ (r = none ∨ r = g) := by
  obtain ⟨h1, h2, h3⟩ := hf
  have hex : Seq.existsNum s.docs d.num = false := by
    unfold Seq.existsNum
    split
    · rename_i x l hx
      have hm : x ∈ s.docs := List.dropWhile_suffix _ |>.mem (by rw [hx]; exact List.mem_cons_self)
      have := hn x hm
      simp; omega
    · rfl
  unfold Seq.checkCompat
  rw [if_neg (by rintro (h | h) <;> contradiction), if_neg (by rintro ⟨h, h'⟩; exact h' (h3 h)), hex]
  simp only [Bool.false_eq_true, if_false]
  rw [hd]
  cases g with
  | none => exact ⟨s.agid, rfl, hs⟩
  | some g =>
    simp only
    by_cases hg : g = ""
    · rw [if_pos hg]; exact ⟨_, rfl, hs⟩
    · rw [if_neg hg]
      rcases hs with hs | hs
      · rw [hs]; exact ⟨some g, rfl, .inr rfl⟩
      · rw [hs]; exact ⟨some g, by simp, .inr rfl⟩

theorem refused_compat {s : Seq.State} {d : Seq.Doc} (hr : (Seq.addDocument s d).2.refused = true) :
    ∃ o, Seq.checkCompat s d = .error o := by
  cases hcc : Seq.checkCompat s d with
  | error o => exact ⟨o, rfl⟩
  | ok g =>
    exfalso
    unfold Seq.addDocument at hr
    rw [hcc] at hr
    simp only at hr
    split at hr
    · simp [Seq.inserted, Seq.Outcome.refused] at hr
    · unfold Seq.discardNew at hr; split at hr
      · simp [Seq.Outcome.refused] at hr
      · split at hr <;> simp [Seq.Outcome.refused] at hr
    · unfold Seq.retry at hr; split at hr
      · simp [Seq.Outcome.refused] at hr
      · split at hr <;> simp [Seq.inserted, Seq.Outcome.refused] at hr
    · simp [Seq.Outcome.refused] at hr
    · simp [Seq.Outcome.refused] at hr

/-- Documents with increasing numbers that fit are all taken. -/
theorem run_increasing {g : Option String} : ∀ (ds : List Seq.Doc) (s : Seq.State), Seq.Tidy s →
    (∀ x ∈ s.docs, ∀ d ∈ ds, x.num < d.num) → (∀ d ∈ ds, Seq.WellTimed d) → ds.Pairwise (fun a b => a.num < b.num) →
    (∀ d ∈ ds, Seq.Fits s.cfg d ∧ d.agid = g) → (s.agid = none ∨ s.agid = g) →
    ∀ o ∈ (Seq.run s ds).2, o = .inserted := by
  intro ds
  induction ds with
  | nil => intro s _ _ _ _ _ _ o ho; simp [Seq.run] at ho
  | cons d ds ih =>
    intro s h hlt hw hp hf hg o ho
    rw [List.pairwise_cons] at hp
    have hd := hw d List.mem_cons_self
    have hn : ∀ x ∈ s.docs, x.num < d.num := fun x hx => hlt x hx d List.mem_cons_self
    have hadd := Seq.tidy_add h hd hn
    obtain ⟨hfd, hgd⟩ := hf d List.mem_cons_self
    obtain ⟨r, hr, hrg⟩ := compat_of_fits hfd hn hgd hg
    have hag : (Seq.addDocument s d).1.agid = none ∨ (Seq.addDocument s d).1.agid = g := by
      rw [Seq.add_agid, hr]; exact hrg
    have key : (Seq.addDocument s d).2 = .inserted ∧ (Seq.addDocument s d).1.cfg = s.cfg ∧
        ∀ x ∈ (Seq.addDocument s d).1.docs, x = d ∨ x ∈ s.docs := by
      rcases Seq.add_effect h.core hd with ⟨ho, hs⟩ | ⟨ho, _, hdocs, _, _, _, _, hc, _⟩ | ⟨_, _, _, _, hdom, _⟩ | ⟨ho, _⟩ |
        ⟨ho, _, hdocs, _⟩
      · exfalso
        rcases refused_compat ho with ⟨o', ho'⟩
        rw [hr] at ho'; cases ho'
      · exact ⟨ho, hc, fun x hx => ((hdocs x).1 hx).imp id (·.1)⟩
      · obtain ⟨D, hD, hlt', _⟩ := hdom
        have := hn D hD
        omega
      · rw [hadd.1] at ho; cases ho
      · rcases ho with ho | ho <;> · have := hadd.1; rw [ho] at this; cases this
    simp only [Seq.run] at ho
    rcases List.mem_cons.mp ho with ho | ho
    · rw [ho]; exact key.1
    · refine ih _ hadd.2 ?_ (fun x hx => hw x (List.mem_cons_of_mem _ hx)) hp.2 ?_ hag o ho
      · intro x hx e he
        rcases key.2.2 x hx with hx' | hx'
        · rw [hx']; exact hp.1 e he
        · exact hlt x hx' e (List.mem_cons_of_mem _ he)
      · intro x hx
        rw [key.2.1]
        exact hf x (List.mem_cons_of_mem _ hx)

theorem mem_readdressed {o : String} {a : NDoc α} : ∀ {l : List (NDoc α)} {k : Nat}, a ∈ readdressed o k l ↔
    ∃ pre d post, l = pre ++ d :: post ∧
      a = { d with selected := some d.seqId, seqId := o, num := k + pre.length + 1 } := by
  intro l
  induction l with
  | nil => intro k; simp [readdressed]
  | cons x xs ih =>
    intro k
    rw [readdressed, List.mem_cons, ih]
    constructor
    · rintro (h | ⟨pre, d, post, h1, h2⟩)
      · exact ⟨[], x, xs, rfl, h⟩
      · refine ⟨x :: pre, d, post, by rw [h1]; rfl, ?_⟩
        rw [h2, List.length_cons]
        have : k + 1 + pre.length + 1 = k + (pre.length + 1) + 1 := by omega
        rw [this]
    · rintro ⟨pre, d, post, h1, h2⟩
      cases pre with
      | nil =>
        left
        simp only [List.nil_append, List.cons.injEq] at h1
        rw [h2, ← h1.1]
        rfl
      | cons y ys =>
        right
        simp only [List.cons_append, List.cons.injEq] at h1
        refine ⟨ys, d, post, h1.2, ?_⟩
        rw [h2, List.length_cons]
        have : k + 1 + ys.length + 1 = k + (ys.length + 1) + 1 := by omega
        rw [this]

theorem readdressed_pairwise (o : String) : ∀ (l : List (NDoc α)) (k : Nat),
    (readdressed o k l).Pairwise (fun a b => a.num < b.num) := by
  intro l
  induction l with
  | nil => intro k; simp [readdressed]
  | cons x xs ih =>
    intro k
    rw [readdressed, List.pairwise_cons]
    refine ⟨?_, ih _⟩
    intro b hb
    obtain ⟨pre, d, post, _, h2⟩ := mem_readdressed.1 hb
    rw [h2]
    show k + 1 < k + 1 + pre.length + 1
    omega

/-- If every call took the document, the accepted documents are all. -/
theorem accepted_all : ∀ (ds : List Seq.Doc) (os : List Seq.Outcome), os.length = ds.length → (∀ o ∈ os, o = .inserted) →
    Seq.accepted ds os = ds := by
  intro ds
  induction ds with
  | nil => intro os _ _; simp [Seq.accepted]
  | cons d ds ih =>
    intro os hl ho
    cases os with
    | nil => simp at hl
    | cons o os =>
      have h1 := ho o List.mem_cons_self
      have h2 := ih os (by simpa using hl) (fun x hx => ho x (List.mem_cons_of_mem _ hx))
      unfold Seq.accepted at h2 ⊢
      rw [h1, List.zip_cons_cons, List.filter_cons_of_pos (by rfl), List.map_cons, h2]

theorem run_length : ∀ (ds : List Seq.Doc) (s : Seq.State), (Seq.run s ds).2.length = ds.length := by
  intro ds
  induction ds with
  | nil => intro s; rfl
  | cons d ds ih => intro s; simp [Seq.run, ih]

end Verif.Node
