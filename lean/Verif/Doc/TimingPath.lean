import Verif.Doc.TimingLemmas
import Mathlib.Data.List.Induction

/-! Helper lemmas: computed times along a path. -/
namespace Verif.Doc

/-- Begin and bound in force below a path. -/
def ctxAt (avail : Int) : Int × Option Int → List Lab → Int × Option Int
  | p, [] => p
  | p, x :: xs => ctxAt avail (p.1 + begOf x, below (ownEnd avail p.1 p.2 x.att) p.2) xs

theorem ctxAt_snoc (avail : Int) (xs : List Lab) (x : Lab) : ∀ p,
    ctxAt avail p (xs ++ [x]) =
      ((ctxAt avail p xs).1 + begOf x,
        below (ownEnd avail (ctxAt avail p xs).1 (ctxAt avail p xs).2 x.att) (ctxAt avail p xs).2) := by
  induction xs with
  | nil => intro p; rfl
  | cons y ys ih => intro p; simp only [List.cons_append, ctxAt]; rw [ih]

theorem ctxAt_fst (avail : Int) (xs : List Lab) : ∀ p, (ctxAt avail p xs).1 = p.1 + absBegin xs := by
  induction xs with
  | nil => intro p; simp [ctxAt, absBegin]
  | cons y ys ih =>
    intro p
    simp only [ctxAt]
    rw [ih]
    simp only [absBegin, List.map_cons, List.sum_cons]
    omega

theorem absBegin_snoc (xs : List Lab) (x : Lab) : absBegin (xs ++ [x]) = absBegin xs + begOf x := by
  simp [absBegin]

/-- Every item of a validated tree is the validation of the corresponding item, in the context its
path determines. -/
theorem reach_times {avail sync : Int} {bound : Option Int} {root : Node Att} {anc : List Lab} {n : Node Lab}
    (h : Reach (times avail sync bound root) anc n) :
    ∃ n0 : Node Att, Reach root (anc.map Lab.att) n0 ∧
      n = times avail (ctxAt avail (sync, bound) anc).1 (ctxAt avail (sync, bound) anc).2 n0 := by
  induction h with
  | here => exact ⟨root, .here, rfl⟩
  | @step anc x kids k hr hk ih =>
    obtain ⟨n0, h0, heq⟩ := ih
    cases n0 with
    | text s => simp [times] at heq
    | br => simp [times] at heq
    | elem a kids0 =>
      simp only [times, Node.elem.injEq] at heq
      obtain ⟨h1, h2⟩ := heq
      rw [h2, timesL_eq, List.mem_map] at hk
      obtain ⟨k0, hk0, hk1⟩ := hk
      have hx : x.att = a := by rw [h1]
      refine ⟨k0, ?_, ?_⟩
      · rw [List.map_append, List.map_singleton, hx]
        exact .step h0 hk0
      · rw [← hk1, ctxAt_snoc]
        simp only [begOf, hx]

theorem reach_comp {avail sync : Int} {bound : Option Int} {root : Node Att} {anc : List Lab} {x : Lab}
    {kids : List (Node Lab)} (h : Reach (times avail sync bound root) anc (.elem x kids)) :
    ∃ kids0, Reach root (anc.map Lab.att) (.elem x.att kids0) ∧
      x.comp = compOf avail (ctxAt avail (sync, bound) anc).1 (ctxAt avail (sync, bound) anc).2 x.att (timedKids kids) ∧
      kids = kids0.map (times avail (ctxAt avail (sync, bound) (anc ++ [x])).1
        (ctxAt avail (sync, bound) (anc ++ [x])).2) := by
  obtain ⟨n0, h0, heq⟩ := reach_times h
  cases n0 with
  | text s => simp [times] at heq
  | br => simp [times] at heq
  | elem a kids0 =>
    simp only [times, Node.elem.injEq] at heq
    obtain ⟨h1, h2⟩ := heq
    have hx : x.att = a := by rw [h1]
    refine ⟨kids0, by rw [hx]; exact h0, ?_, ?_⟩
    · rw [h2, hx]; conv => lhs; rw [h1]
    · rw [h2, timesL_eq, ctxAt_snoc]
      simp only [begOf, hx]

theorem reach_trans {α : Type} {root : Node α} {anc : List α} {x : α} {kids : List (Node α)} {k : Node α}
    (h : Reach root anc (.elem x kids)) (hk : k ∈ kids) {anc' : List α} {n : Node α}
    (h' : Reach k anc' n) : Reach root (anc ++ x :: anc') n := by
  induction h' with
  | here => exact .step h hk
  | @step anc' y ks m _ hm ih =>
    have := Reach.step ih hm
    simpa using this

theorem reach_append {α : Type} {root : Node α} {anc : List α} {m : Node α}
    (h : Reach root anc m) {anc' : List α} {n : Node α}
    (h' : Reach m anc' n) : Reach root (anc ++ anc') n := by
  induction h' with
  | here => simpa using h
  | @step anc' y ks m _ hm ih =>
    have := Reach.step ih hm
    simpa [List.append_assoc] using this

/-- A path starts with the root's label, unless it is empty. -/
theorem reach_cons {α : Type} {x : α} {kids : List (Node α)} {anc : List α} {n : Node α}
    (h : Reach (.elem x kids) anc n) :
    (anc = [] ∧ n = .elem x kids) ∨ ∃ k ∈ kids, ∃ rest, anc = x :: rest ∧ Reach k rest n := by
  induction h with
  | here => exact .inl ⟨rfl, rfl⟩
  | @step anc y ks m _ hm ih =>
    rcases ih with ⟨h1, h2⟩ | ⟨k, hk, rest, h1, h2⟩
    · injection h2 with h2 h3
      subst h1 h2 h3
      exact .inr ⟨m, hm, [], rfl, .here⟩
    · exact .inr ⟨k, hk, rest ++ [y], by rw [h1]; rfl, .step h2 hm⟩

/-! ### Bounds -/

def omin : Option Int → Option Int → Option Int
  | none, o => o
  | o, none => o
  | some a, some b => some (min a b)

theorem earliest_append {l l' : List Int} {o o' : Option Int} (h : Earliest l o) (h' : Earliest l' o') :
    Earliest (l ++ l') (omin o o') := by
  cases o with
  | none =>
    cases o' with
    | none => simp_all [Earliest, omin]
    | some b => simp_all [Earliest, omin]
  | some a =>
    cases o' with
    | none => simp_all [Earliest, omin]
    | some b =>
      simp only [Earliest, omin, List.mem_append] at *
      rcases Int.le_total a b with hab | hab
      · rw [Int.min_eq_left hab]
        refine ⟨.inl h.1, ?_⟩
        rintro y (hy | hy)
        · exact h.2 y hy
        · exact Int.le_trans hab (h'.2 y hy)
      · rw [Int.min_eq_right hab]
        refine ⟨.inr h'.1, ?_⟩
        rintro y (hy | hy)
        · exact Int.le_trans hab (h.2 y hy)
        · exact h'.2 y hy

theorem earliest_single (a : Int) : Earliest [a] (some a) := by simp [Earliest]

/-- The bound below an inner element. -/
theorem below_inner {avail sync : Int} {bound : Option Int} {x : Lab} (hk : x.att.kind ≠ .body)
    {l : List Int} (h : Earliest l bound) :
    Earliest (l ++ ownEnds avail sync x) (below (ownEnd avail sync bound x.att) bound) ∧
    (ownEnds avail sync x ≠ [] ↔ ownEnd avail sync bound x.att ≠ none) := by
  have e1 : ownEnd avail sync bound x.att =
      baseEnd { sync := sync, begs := [], ends := bound.toList, avail := avail } x.att := by
    unfold ownEnd preEnd
    cases hkk : x.att.kind <;> simp_all
  have e2 : ownEnds avail sync x = (match eff x.att.fin with
    | some e => [sync + e]
    | none => []) := by
    unfold ownEnds
    cases hkk : x.att.kind <;> cases eff x.att.fin <;> simp_all
  rw [e1, e2]
  unfold baseEnd
  cases hf : eff x.att.fin with
  | none => simp [below]; exact h
  | some e =>
    simp only [below]
    refine ⟨?_, by simp⟩
    have := earliest_append h (earliest_single (sync + e))
    cases bound with
    | none => simpa [omin] using this
    | some b =>
      simp only [omin] at this
      simp only [Option.toList]
      rw [Int.min_comm]
      exact this

/-- The bound below the body. -/
theorem below_body {avail : Int} {x : Lab} (hk : x.att.kind = .body) :
    Earliest (ownEnds avail 0 x) (below (ownEnd avail 0 none x.att) none) ∧
    (ownEnds avail 0 x ≠ [] ↔ ownEnd avail 0 none x.att ≠ none) := by
  unfold ownEnds ownEnd preEnd baseEnd
  rw [hk]
  cases eff x.att.fin <;> cases eff x.att.dur <;> cases eff x.att.beg <;>
    simp [below, Earliest] <;> omega

theorem pathEnds_snoc (avail : Int) (xs : List Lab) (x : Lab) : ∀ base,
    pathEnds avail base (xs ++ [x]) = pathEnds avail base xs ++ ownEnds avail (base + absBegin xs) x := by
  induction xs with
  | nil => intro base; simp [pathEnds, absBegin]
  | cons y ys ih =>
    intro base
    simp only [List.cons_append, pathEnds]
    rw [ih, List.append_assoc]
    congr 3
    simp only [absBegin, List.map_cons, List.sum_cons]
    omega

/-- The bound in force below a path of a sane document is the earliest end specified on it. -/
theorem ctxAt_bound {avail : Int} : ∀ (path : List Lab),
    (∀ pre x rest, path = pre ++ x :: rest → (x.att.kind = .body ↔ pre = [])) →
    Earliest (pathEnds avail 0 path) (ctxAt avail (0, none) path).2 := by
  intro path
  induction path using List.reverseRecOn with
  | nil => intro _; simp [ctxAt, pathEnds, Earliest]
  | append_singleton xs x ih =>
    intro h
    have ih' := ih (fun pre y rest he => h pre y (rest ++ [x]) (by rw [he]; simp))
    rw [ctxAt_snoc, pathEnds_snoc]
    simp only
    by_cases hx : xs = []
    · subst hx
      have hb : x.att.kind = .body := (h [] x [] rfl).mpr rfl
      simpa [pathEnds, absBegin, ctxAt] using (below_body (avail := avail) hb).1
    · have hb : x.att.kind ≠ .body := by
        intro hh; exact hx ((h xs x [] rfl).mp hh)
      have e : (ctxAt avail (0, none) xs).1 = 0 + absBegin xs := ctxAt_fst avail xs (0, none)
      rw [e]
      exact (below_inner hb ih').1

/-! ### Children -/

theorem mem_timedKids {kids : List (Node Lab)} {c : Comp} :
    c ∈ timedKids kids ↔ ∃ y, GoodKid kids y ∧ y.comp = c := by
  induction kids with
  | nil => simp [timedKids, GoodKid]
  | cons k ks ih =>
    have hcons : ∀ y, GoodKid (k :: ks) y ↔ (∃ ys, k = .elem y ys) ∧ badly y.att = false ∨ GoodKid ks y := by
      intro y
      constructor
      · rintro ⟨ys, hy, hb⟩
        rcases List.mem_cons.mp hy with h | h
        · exact .inl ⟨⟨ys, h.symm⟩, hb⟩
        · exact .inr ⟨ys, h, hb⟩
      · rintro (⟨⟨ys, h⟩, hb⟩ | ⟨ys, h, hb⟩)
        · exact ⟨ys, by rw [h]; exact List.mem_cons_self, hb⟩
        · exact ⟨ys, List.mem_cons_of_mem _ h, hb⟩
    cases k with
    | text s => simp only [timedKids, ih, hcons]; simp
    | br => simp only [timedKids, ih, hcons]; simp
    | elem x xs =>
      simp only [timedKids]
      constructor
      · intro h
        split at h
        · obtain ⟨y, hy, he⟩ := ih.mp h
          exact ⟨y, (hcons y).mpr (.inr hy), he⟩
        · rename_i hb
          rcases List.mem_cons.mp h with h | h
          · exact ⟨x, (hcons x).mpr (.inl ⟨⟨xs, rfl⟩, by simpa using hb⟩), h.symm⟩
          · obtain ⟨y, hy, he⟩ := ih.mp h
            exact ⟨y, (hcons y).mpr (.inr hy), he⟩
      · rintro ⟨y, hy, he⟩
        rcases (hcons y).mp hy with ⟨⟨ys, h⟩, hb⟩ | hy
        · injection h with h1 h2
          subst h1
          rw [if_neg (by simp [hb])]
          rw [← he]; exact List.mem_cons_self
        · split
          · exact ih.mpr ⟨y, hy, he⟩
          · exact List.mem_cons_of_mem _ (ih.mpr ⟨y, hy, he⟩)

theorem timedKids_nil {kids : List (Node Lab)} : timedKids kids = [] ↔ ∀ y, ¬ GoodKid kids y := by
  constructor
  · intro h y hy
    have := mem_timedKids.mpr ⟨y, hy, rfl⟩
    rw [h] at this; simp at this
  · intro h
    cases he : timedKids kids with
    | nil => rfl
    | cons c cs =>
      have : c ∈ timedKids kids := by rw [he]; exact List.mem_cons_self
      obtain ⟨y, hy, _⟩ := mem_timedKids.mp this
      exact absurd hy (h y)

theorem minBegin_spec : ∀ (ks : List Comp) (k : Comp),
    (∃ c ∈ k :: ks, minBegin k ks = c.b) ∧ ∀ c ∈ k :: ks, minBegin k ks ≤ c.b := by
  have key : ∀ (ks : List Comp) (m : Int),
      (ks.foldl (fun m x => min m x.b) m = m ∨ ∃ c ∈ ks, ks.foldl (fun m x => min m x.b) m = c.b) ∧
      ks.foldl (fun m x => min m x.b) m ≤ m ∧ ∀ c ∈ ks, ks.foldl (fun m x => min m x.b) m ≤ c.b := by
    intro ks
    induction ks with
    | nil => intro m; simp
    | cons a as ih =>
      intro m
      simp only [List.foldl_cons]
      obtain ⟨h1, h2, h3⟩ := ih (min m a.b)
      refine ⟨?_, by omega, ?_⟩
      · rcases h1 with h1 | ⟨c, hc, h1⟩
        · rcases Int.le_total m a.b with h | h
          · left; rw [h1]; omega
          · right; exact ⟨a, List.mem_cons_self, by rw [h1]; omega⟩
        · exact .inr ⟨c, List.mem_cons_of_mem _ hc, h1⟩
      · intro c hc
        rcases List.mem_cons.mp hc with rfl | hc
        · omega
        · exact h3 c hc
  intro ks k
  obtain ⟨h1, h2, h3⟩ := key ks k.b
  unfold minBegin
  refine ⟨?_, ?_⟩
  · rcases h1 with h1 | ⟨c, hc, h1⟩
    · exact ⟨k, List.mem_cons_self, h1⟩
    · exact ⟨c, List.mem_cons_of_mem _ hc, h1⟩
  · intro c hc
    rcases List.mem_cons.mp hc with rfl | hc
    · exact h2
    · exact h3 c hc

theorem maxEnd_spec : ∀ (ks : List Comp), ks ≠ [] →
    (maxEnd ks = none ↔ ∃ c ∈ ks, c.e = none) ∧
    ∀ m, maxEnd ks = some m → (∃ c ∈ ks, c.e = some m) ∧ ∀ c ∈ ks, ∀ m', c.e = some m' → m' ≤ m := by
  intro ks
  induction ks with
  | nil => intro h; exact absurd rfl h
  | cons a as ih =>
    intro _
    cases as with
    | nil =>
      simp only [maxEnd, List.mem_singleton]
      refine ⟨by simp, ?_⟩
      intro m hm
      refine ⟨⟨a, rfl, hm⟩, ?_⟩
      rintro c rfl m' hm'
      rw [hm] at hm'; injection hm' with hm'; omega
    | cons b bs =>
      obtain ⟨h1, h2⟩ := ih (by simp)
      simp only [maxEnd]
      cases hae : a.e with
      | none =>
        simp only [hae]
        exact ⟨by simp; exact .inl hae, by intro m hm; simp at hm⟩
      | some x =>
        cases hm : maxEnd (b :: bs) with
        | none =>
          simp only [maxEnd, hm]
          obtain ⟨c, hc, he⟩ := h1.mp hm
          exact ⟨by simp only [true_iff]; exact ⟨c, List.mem_cons_of_mem _ hc, he⟩, by intro m hm; simp at hm⟩
        | some y =>
          simp only [hm]
          obtain ⟨⟨c, hc, he⟩, hall⟩ := h2 y hm
          refine ⟨?_, ?_⟩
          · simp only [reduceCtorEq, false_iff]
            rintro ⟨d, hd, hde⟩
            rcases List.mem_cons.mp hd with rfl | hd
            · rw [hae] at hde; simp at hde
            · have := h1.mpr ⟨d, hd, hde⟩
              rw [hm] at this; simp at this
          · intro m hmm
            injection hmm with hmm
            refine ⟨?_, ?_⟩
            · rcases Int.le_total x y with hxy | hxy
              · exact ⟨c, List.mem_cons_of_mem _ hc, by rw [he]; congr 1; omega⟩
              · exact ⟨a, List.mem_cons_self, by rw [hae]; congr 1; omega⟩
            · intro d hd m' hd'
              rcases List.mem_cons.mp hd with rfl | hd
              · rw [hae] at hd'; injection hd' with hd'; omega
              · have := hall d hd m' hd'; omega

end Verif.Doc
