import Verif.Node.DedupLemmas

/-! C42: deduplication keeps appearance. -/
namespace Verif.Dedup
open Verif.Node

/-! ### References -/

theorem replaceRefs_map (mp : Ref → Ref) (p : List Ref) : ∀ (t : List Ref) (seen : Dict Ref Nat),
    (p.map mp ++ t).Nodup → (∀ k n, seen.get k = some n → k ∈ t) →
    replaceRefs mp p.length (p ++ t) seen = some (p.map mp ++ t) := by
  induction p using snoc_induction with
  | nil => intro t seen _ _; rfl
  | snoc p r ih =>
    intro t seen hn hs
    rw [List.length_append, List.length_singleton, replaceRefs]
    have hget : (p ++ [r] ++ t)[p.length]? = some r := by simp
    rw [hget]
    simp only
    rw [List.map_append, List.map_singleton, List.append_assoc, List.singleton_append] at hn
    have hnot : mp r ∉ t := by
      have := (List.nodup_append.mp hn).2.1
      rw [List.nodup_cons] at this
      exact this.1
    have hnone : seen.get (mp r) = none := by
      cases hg : seen.get (mp r) with
      | none => rfl
      | some n => exact absurd (hs _ _ hg) hnot
    rw [hnone]
    simp only
    have hset : (p ++ [r] ++ t).set p.length (mp r) = p ++ mp r :: t := by simp
    rw [hset, ih (mp r :: t) _ hn]
    · simp
    · intro k n hk
      rw [Dict.get_put] at hk
      split at hk
      · rename_i he; rw [he]; exact List.mem_cons_self
      · exact List.mem_cons_of_mem _ (hs _ _ hk)

theorem replaced_map {mp : Ref → Ref} {l : List Ref} (h : (l.map mp).Nodup) : replaced mp l = some (l.map mp) := by
  have := replaceRefs_map mp l [] [] (by simpa using h) (by simp [Dict.get])
  simpa [replaced] using this

theorem replaceRefs_mem (mp : Ref → Ref) : ∀ (i : Nat) (l : List Ref) (seen : Dict Ref Nat) (r : List Ref),
    (∀ k p, seen.get k = some p → i ≤ p) → replaceRefs mp i l seen = some r →
    ∀ x ∈ r, x ∈ (l.take i).map mp ∨ x ∈ l.drop i
  | 0, l, seen, r, _, h => by
    intro x hx
    simp only [replaceRefs, Option.some.injEq] at h
    rw [← h] at hx
    exact .inr (by simpa using hx)
  | i + 1, l, seen, r, hs, h => by
    rw [replaceRefs] at h
    cases hg : l[i]? with
    | none => rw [hg] at h; simp at h
    | some e =>
      rw [hg] at h
      simp only at h
      obtain ⟨hi, he⟩ := List.getElem?_eq_some_iff.mp hg
      have htake : l.take (i + 1) = l.take i ++ [e] := by rw [List.take_add_one, hg]; rfl
      have hseen : ∀ k p, (seen.put (mp e) i).get k = some p → i ≤ p := by
        intro k p hk
        rw [Dict.get_put] at hk
        split at hk
        · simp at hk; omega
        · have := hs k p hk; omega
      have step : ∀ l' : List Ref, l'.take i = l.take i → (∀ x ∈ l'.drop (i + 1), x ∈ l.drop (i + 1)) → l'.length > i →
          replaceRefs mp i (l'.set i (mp e)) (seen.put (mp e) i) = some r →
          ∀ x ∈ r, x ∈ (l.take (i + 1)).map mp ∨ x ∈ l.drop (i + 1) := by
        intro l' ht hd hlen hr x hx
        have := replaceRefs_mem mp i _ _ r hseen hr x hx
        rw [List.take_set_of_le (Nat.le_refl i), ht] at this
        rw [htake, List.map_append, List.mem_append]
        rcases this with h' | h'
        · exact .inl (.inl h')
        · have hd' : (l'.set i (mp e)).drop i = mp e :: l'.drop (i + 1) := by
            have h1 : i < (l'.set i (mp e)).length := by simpa using hlen
            rw [List.drop_eq_getElem_cons h1, List.getElem_set_self, List.drop_set_of_lt (Nat.lt_succ_self i)]
          rw [hd', List.mem_cons] at h'
          rcases h' with h' | h'
          · rw [h']; exact .inl (.inr (by simp))
          · exact .inr (hd x h')
      cases hk : seen.get (mp e) with
      | none =>
        rw [hk] at h
        exact step l rfl (fun x hx => hx) hi h
      | some p =>
        rw [hk] at h
        simp only at h
        split at h
        · rename_i hp
          have hip := hs _ _ hk
          refine step (l.eraseIdx p) ?_ ?_ ?_ h
          · rw [List.eraseIdx_eq_take_drop_succ, List.take_append_of_le_length (by rw [List.length_take]; omega), List.take_take]
            congr 1
            omega
          · intro x hx
            rw [List.eraseIdx_eq_take_drop_succ, List.drop_append] at hx
            rcases List.mem_append.mp hx with hx | hx
            · rw [List.drop_take] at hx
              exact List.mem_of_mem_take hx
            · rw [List.drop_drop] at hx
              have hlt : (l.take p).length = p := by rw [List.length_take]; omega
              rw [hlt] at hx
              have : l.drop (p + 1 + (i + 1 - p)) = (l.drop (i + 1)).drop (p + 1 + (i + 1 - p) - (i + 1)) := by
                rw [List.drop_drop]; congr 1; omega
              rw [this] at hx
              exact List.mem_of_mem_drop hx
          · rw [List.length_eraseIdx_of_lt hp]; omega
        · simp at h

/-- Whatever the references, none is added: every reference in the result is the replacement of one that was
there. -/
theorem replaced_mem {mp : Ref → Ref} {l r : List Ref} (h : replaced mp l = some r) : ∀ x ∈ r, x ∈ l.map mp := by
  intro x hx
  rcases replaceRefs_mem mp l.length l [] r (by simp [Dict.get]) h x hx with h | h
  · simpa using h
  · simp at h

/-- The first occurrences of a list. -/
def keepFirst {α : Type} [DecidableEq α] : List α → List α
  | [] => []
  | x :: l => x :: (keepFirst l).filter (fun y => decide (y ≠ x))

/-- Between an entry and the next one equal to it no entry is repeated. -/
def flatRepeats {α : Type} [DecidableEq α] : List α → Prop
  | [] => True
  | x :: l => (x ∈ l → (l.takeWhile (fun y => decide (y ≠ x))).Nodup) ∧ flatRepeats l

section keep
variable {α β : Type} [DecidableEq α] [DecidableEq β]

theorem mem_keepFirst {x : α} : ∀ {l : List α}, x ∈ keepFirst l ↔ x ∈ l
  | [] => by simp [keepFirst]
  | y :: l => by
    rw [keepFirst, List.mem_cons, List.mem_filter, List.mem_cons, mem_keepFirst]
    by_cases h : x = y
    · simp [h]
    · simp [h]

theorem keepFirst_nodup : ∀ (l : List α), (keepFirst l).Nodup
  | [] => by simp [keepFirst]
  | y :: l => by
    rw [keepFirst, List.nodup_cons]
    refine ⟨by simp, (keepFirst_nodup l).sublist List.filter_sublist⟩

theorem keepFirst_self : ∀ {l : List α}, l.Nodup → keepFirst l = l
  | [], _ => rfl
  | y :: l, h => by
    rw [List.nodup_cons] at h
    rw [keepFirst, keepFirst_self h.2, List.filter_eq_self.mpr]
    intro z hz
    have : z ≠ y := by rintro rfl; exact h.1 hz
    simpa using this

theorem keepFirst_map {f : α → β} : ∀ {l : List α}, (∀ x ∈ l, ∀ y ∈ l, f x = f y → x = y) →
    keepFirst (l.map f) = (keepFirst l).map f
  | [], _ => rfl
  | x :: l, h => by
    rw [List.map_cons, keepFirst, keepFirst, List.map_cons,
      keepFirst_map (fun a ha b hb => h a (List.mem_cons_of_mem _ ha) b (List.mem_cons_of_mem _ hb)), List.filter_map]
    congr 2
    apply List.filter_congr
    intro y hy
    have hy' := mem_keepFirst.mp hy
    simp only [Function.comp_apply, ne_eq, decide_not, Bool.not_eq_eq_eq_not, Bool.not_not, decide_eq_decide]
    constructor
    · intro e; exact h y (List.mem_cons_of_mem _ hy') x List.mem_cons_self e
    · intro e; rw [e]

theorem flatRepeats_of_nodup : ∀ {l : List α}, l.Nodup → flatRepeats l
  | [], _ => trivial
  | x :: l, h => by
    rw [List.nodup_cons] at h
    exact ⟨fun hx => absurd hx h.1, flatRepeats_of_nodup h.2⟩

theorem flatRepeats_map {f : α → β} : ∀ {l : List α}, (∀ x ∈ l, ∀ y ∈ l, f x = f y → x = y) →
    flatRepeats (l.map f) → flatRepeats l
  | [], _, _ => trivial
  | x :: l, h, hf => by
    have h' : ∀ a ∈ l, ∀ b ∈ l, f a = f b → a = b :=
      fun a ha b hb => h a (List.mem_cons_of_mem _ ha) b (List.mem_cons_of_mem _ hb)
    refine ⟨?_, flatRepeats_map h' hf.2⟩
    intro hx
    have := hf.1 (List.mem_map_of_mem hx)
    rw [List.takeWhile_map] at this
    have e : l.takeWhile (fun y => decide (y ≠ x)) = l.takeWhile ((fun y => decide (y ≠ f x)) ∘ f) := by
      have : ∀ m : List α, (∀ y ∈ m, y ∈ l) → m.takeWhile (fun y => decide (y ≠ x)) = m.takeWhile ((fun y => decide (y ≠ f x)) ∘ f) := by
        intro m
        induction m with
        | nil => intro _; rfl
        | cons y m ih =>
          intro hm
          have hy : (y = x) ↔ (f y = f x) :=
            ⟨fun e => by rw [e], fun e => h y (List.mem_cons_of_mem _ (hm y List.mem_cons_self)) x List.mem_cons_self e⟩
          rw [List.takeWhile_cons, List.takeWhile_cons, ih (fun z hz => hm z (List.mem_cons_of_mem _ hz))]
          simp only [Function.comp_apply, ne_eq, hy]
      exact this l (fun y hy => hy)
    rw [e]
    exact List.Pairwise.of_map f (fun a b hab e => hab (by rw [e])) this

/-- Where the first entry equal to `x` is. -/
theorem keepFirst_split {x : α} : ∀ {l : List α}, x ∈ l → (l.takeWhile (fun y => decide (y ≠ x))).Nodup →
    ∃ r, keepFirst l = l.takeWhile (fun y => decide (y ≠ x)) ++ x :: r ∧ x ∉ r
  | [], h, _ => by simp at h
  | y :: l, h, hn => by
    by_cases hy : y = x
    · subst hy
      rw [List.takeWhile_cons, if_neg (by simp)]
      exact ⟨_, rfl, by simp⟩
    · rw [List.takeWhile_cons, if_pos (by simpa using hy)] at hn ⊢
      rw [List.nodup_cons] at hn
      have hx : x ∈ l := by
        rcases List.mem_cons.mp h with e | h
        · exact absurd e.symm hy
        · exact h
      obtain ⟨r, e, hr⟩ := keepFirst_split hx hn.2
      rw [keepFirst, e, List.filter_append, List.filter_cons]
      have h1 : (l.takeWhile (fun y => decide (y ≠ x))).filter (fun z => decide (z ≠ y)) = l.takeWhile (fun y => decide (y ≠ x)) := by
        rw [List.filter_eq_self]
        intro z hz
        have : z ≠ y := by rintro rfl; exact hn.1 hz
        simpa using this
      have h2 : ¬ x = y := fun e => hy e.symm
      rw [h1, if_pos (by simpa using h2)]
      exact ⟨_, rfl, fun hm => hr (List.mem_filter.mp hm).1⟩

end keep

/-- The position of the first entry equal to `x`. -/
def firstAt (x : Ref) (l : List Ref) : Nat := (l.takeWhile (fun y => decide (y ≠ x))).length

theorem firstAt_cons_ne {x y : Ref} (l : List Ref) (h : y ≠ x) : firstAt x (y :: l) = firstAt x l + 1 := by
  unfold firstAt
  rw [List.takeWhile_cons, if_pos (by simpa using h), List.length_cons]

theorem firstAt_cons_eq {x : Ref} (l : List Ref) : firstAt x (x :: l) = 0 := by
  unfold firstAt
  rw [List.takeWhile_cons, if_neg (by simp)]; rfl

theorem replaceRefs_keep (mp : Ref → Ref) (p : List Ref) : ∀ (t : List Ref) (seen : Dict Ref Nat),
    flatRepeats (p.map mp ++ t) → (∀ k n, seen.get k = some n ↔ k ∈ t ∧ n = p.length + firstAt k t) →
    replaceRefs mp p.length (p ++ keepFirst t) seen = some (keepFirst (p.map mp ++ t)) := by
  induction p using snoc_induction with
  | nil => intro t seen _ _; rfl
  | snoc p r ih =>
    intro t seen hn hs
    have hmp : (p ++ [r]).map mp ++ t = p.map mp ++ mp r :: t := by simp
    rw [hmp] at hn ⊢
    have hfl : ∀ (a b : List Ref), flatRepeats (a ++ b) → flatRepeats b := by
      intro a
      induction a with
      | nil => intro b h; exact h
      | cons x a ih => intro b h; exact ih b h.2
    have hhere := (hfl _ _ hn).1
    rw [List.length_append, List.length_singleton, replaceRefs]
    have hget : (p ++ [r] ++ keepFirst t)[p.length]? = some r := by simp
    rw [hget]
    simp only
    have hput : ∀ k n, (seen.put (mp r) p.length).get k = some n ↔ k ∈ mp r :: t ∧ n = p.length + firstAt k (mp r :: t) := by
      intro k n
      rw [Dict.get_put]
      by_cases hk : k = mp r
      · subst hk
        rw [if_pos rfl, firstAt_cons_eq]
        simp [eq_comm]
      · have hk' : mp r ≠ k := fun e => hk e.symm
        rw [if_neg hk, hs, firstAt_cons_ne _ hk', List.length_append, List.length_singleton, List.mem_cons]
        constructor
        · rintro ⟨h1, h2⟩; exact ⟨.inr h1, by omega⟩
        · rintro ⟨h1, h2⟩
          rcases h1 with h1 | h1
          · exact absurd h1 hk
          · exact ⟨h1, by omega⟩
    have key : ∀ l', l' = p ++ r :: (keepFirst t).filter (fun y => decide (y ≠ mp r)) →
        replaceRefs mp p.length (l'.set p.length (mp r)) (seen.put (mp r) p.length) = some (keepFirst (p.map mp ++ mp r :: t)) := by
      rintro l' rfl
      have hset : (p ++ r :: (keepFirst t).filter (fun y => decide (y ≠ mp r))).set p.length (mp r) = p ++ keepFirst (mp r :: t) := by
        rw [keepFirst]; simp
      rw [hset]
      exact ih (mp r :: t) _ hn hput
    by_cases hm : mp r ∈ t
    · have hg := (hs (mp r) _).mpr ⟨hm, rfl⟩
      rw [hg]
      simp only
      obtain ⟨u, hu, hu'⟩ := keepFirst_split hm (hhere hm)
      have hlen : (p ++ [r]).length + firstAt (mp r) t < (p ++ [r] ++ keepFirst t).length := by
        rw [hu]; simp only [firstAt, List.length_append, List.length_cons]; omega
      rw [if_pos hlen]
      apply key
      have herase : (p ++ [r] ++ keepFirst t).eraseIdx ((p ++ [r]).length + firstAt (mp r) t) =
          p ++ [r] ++ (t.takeWhile (fun y => decide (y ≠ mp r)) ++ u) := by
        rw [hu, List.eraseIdx_append_of_length_le (by omega)]
        congr 1
        rw [show (p ++ [r]).length + firstAt (mp r) t - (p ++ [r]).length = firstAt (mp r) t by omega]
        unfold firstAt
        rw [List.eraseIdx_append_of_length_le (Nat.le_refl _), Nat.sub_self]
        rfl
      rw [herase, hu, List.filter_append, List.filter_cons, if_neg (by simp)]
      have f1 : (t.takeWhile (fun y => decide (y ≠ mp r))).filter (fun y => decide (y ≠ mp r)) =
          t.takeWhile (fun y => decide (y ≠ mp r)) := by
        rw [List.filter_eq_self]
        intro z hz
        have : ∀ l : List Ref, z ∈ l.takeWhile (fun y => decide (y ≠ mp r)) → decide (z ≠ mp r) = true := by
          intro l
          induction l with
          | nil => intro h; simp at h
          | cons a l ih =>
            intro h
            rw [List.takeWhile_cons] at h
            split at h
            · rcases List.mem_cons.mp h with h | h
              · rw [h]; assumption
              · exact ih h
            · simp at h
        exact this t hz
      have f2 : u.filter (fun y => decide (y ≠ mp r)) = u := by
        rw [List.filter_eq_self]
        intro z hz
        have : z ≠ mp r := by rintro rfl; exact hu' hz
        simpa using this
      rw [f1, f2]
      simp
    · have hg : seen.get (mp r) = none := by
        cases hg : seen.get (mp r) with
        | none => rfl
        | some n => exact absurd ((hs _ _).mp hg).1 hm
      rw [hg]
      simp only
      apply key
      have f2 : (keepFirst t).filter (fun y => decide (y ≠ mp r)) = keepFirst t := by
        rw [List.filter_eq_self]
        intro z hz
        have : z ≠ mp r := by rintro rfl; exact hm (mem_keepFirst.mp hz)
        simpa using this
      rw [f2]
      simp

/-- References replaced, if no repeats are nested: the first of each. -/
theorem replaced_keepFirst {mp : Ref → Ref} {l : List Ref} (h : flatRepeats (l.map mp)) :
    replaced mp l = some (keepFirst (l.map mp)) := by
  have := replaceRefs_keep mp l [] [] (by simpa using h) (by simp [Dict.get])
  simpa [replaced, keepFirst] using this

/-! ### The dicts -/

/-- `v` with renamed references. -/
def withRefs (m : Ref → Ref) (v : DElem) : DElem := { v with refs := v.refs.map m }

/-- What collating a list does to the dicts. -/
structure Collated (h : List Char → Int) (m : Ref → Ref) (vs : List DElem) (s t : DState) : Prop where
  new : t.new = s.new
  nodup : (s.hash.map Prod.fst).Nodup → (t.hash.map Prod.fst).Nodup
  old_other : ∀ x, x ∉ vs.map DElem.id → t.old.get x = s.old.get x
  old_own : ∀ v ∈ vs, t.old.get v.id = some (h (textOf (withRefs m v)))
  hash_other : ∀ k, (∀ v ∈ vs, h (textOf (withRefs m v)) ≠ k) → t.hash.get k = s.hash.get k
  hash_own : ∀ v ∈ vs, ∃ w ∈ vs, t.hash.get (h (textOf (withRefs m v))) = some (withRefs m w) ∧
    h (textOf (withRefs m w)) = h (textOf (withRefs m v))

theorem collated (h : List Char → Int) (m : Ref → Ref) : ∀ (vs : List DElem) (s : DState), (vs.map DElem.id).Nodup →
    (∀ v ∈ vs, ∀ r ∈ v.refs, s.renamed r = m r ∧ ∀ x, r = some x → x ∉ vs.map DElem.id) →
    Collated h m vs s (collate h s vs)
  | [], s, _, _ => ⟨rfl, id, fun _ _ => rfl, by simp, fun _ _ => rfl, by simp⟩
  | v :: vs, s, hn, hr => by
    rw [List.map_cons, List.nodup_cons] at hn
    have hv : v.refs.map s.renamed = v.refs.map m := by
      apply List.map_congr_left
      intro r hm
      exact (hr v List.mem_cons_self r hm).1
    rw [collate, hv]
    have hw : ({ v with refs := v.refs.map m } : DElem) = withRefs m v := rfl
    rw [hw]
    have ih := collated h m vs { s with old := s.old.put v.id (h (textOf (withRefs m v))),
                                        hash := s.hash.put (h (textOf (withRefs m v))) (withRefs m v) } hn.2 (by
      intro w hwm r hrm
      obtain ⟨h1, h2⟩ := hr w (List.mem_cons_of_mem _ hwm) r hrm
      refine ⟨?_, fun x hx hm => h2 x hx (List.mem_cons_of_mem _ hm)⟩
      rw [← h1]
      cases r with
      | none => rfl
      | some x =>
        have : ¬ x = v.id := by
          intro e
          exact h2 x rfl (by rw [e]; exact List.mem_cons_self)
        simp only [DState.renamed, Option.bind_some]
        rw [Dict.get_put, if_neg this])
    refine ⟨ih.new, fun h0 => ih.nodup (Dict.nodup_put h0 _ _), ?_, ?_, ?_, ?_⟩
    · intro x hx
      rw [List.map_cons, List.mem_cons, not_or] at hx
      rw [ih.old_other x hx.2]
      simp only
      rw [Dict.get_put, if_neg hx.1]
    · intro w hwm
      rcases List.mem_cons.mp hwm with rfl | hwm
      · rw [ih.old_other _ hn.1]
        simp only
        rw [Dict.get_put, if_pos rfl]
      · exact ih.old_own w hwm
    · intro k hk
      rw [ih.hash_other k (fun w hwm => hk w (List.mem_cons_of_mem _ hwm))]
      simp only
      rw [Dict.get_put, if_neg (fun e => hk v List.mem_cons_self e.symm)]
    · intro w hwm
      by_cases hex : ∃ u ∈ vs, h (textOf (withRefs m u)) = h (textOf (withRefs m w))
      · obtain ⟨u, hu, hue⟩ := hex
        obtain ⟨x, hx, hx1, hx2⟩ := ih.hash_own u hu
        exact ⟨x, List.mem_cons_of_mem _ hx, by rw [← hue]; exact hx1, by rw [hx2, hue]⟩
      · have hwv : w = v := by
          rcases List.mem_cons.mp hwm with e | hwm
          · exact e
          · exact absurd ⟨w, hwm, rfl⟩ hex
        subst hwv
        refine ⟨w, List.mem_cons_self, ?_, rfl⟩
        rw [ih.hash_other _ (fun u hu e => hex ⟨u, hu, e⟩)]
        simp only
        rw [Dict.get_put, if_pos rfl]

theorem appendNew_fst (els : List DElem) : ∀ (l : List (Int × DElem)) (s : DState), (l.map Prod.fst).Nodup →
    (appendNew els s l).1.old = s.old ∧ (appendNew els s l).1.hash = s.hash ∧
    (∀ k, k ∉ l.map Prod.fst → (appendNew els s l).1.new.get k = s.new.get k) ∧
    (∀ k e, (k, e) ∈ l → (appendNew els s l).1.new.get k = some e.id)
  | [], s, _ => ⟨rfl, rfl, fun _ _ => rfl, by simp⟩
  | (k, e) :: l, s, hn => by
    rw [List.map_cons, List.nodup_cons] at hn
    obtain ⟨h1, h2, h3, h4⟩ := appendNew_fst els l { s with new := s.new.put k e.id } hn.2
    simp only [appendNew]
    refine ⟨h1, h2, ?_, ?_⟩
    · intro x hx
      rw [List.map_cons, List.mem_cons, not_or] at hx
      rw [h3 x hx.2]
      simp only
      rw [Dict.get_put, if_neg hx.1]
    · intro x f hx
      rcases List.mem_cons.mp hx with he | hx
      · injection he with e1 e2
        subst e1 e2
        rw [h3 _ hn.1]
        simp only
        rw [Dict.get_put, if_pos rfl]
      · exact h4 x f hx

theorem filter_id {els : List DElem} (hn : (els.map DElem.id).Nodup) (e : DElem) :
    (els.filter (fun o => decide (o.id = e.id))).map (fun _ => e) = if e.id ∈ els.map DElem.id then [e] else [] := by
  induction els with
  | nil => simp
  | cons o els ih =>
    rw [List.map_cons, List.nodup_cons] at hn
    rw [List.filter_cons]
    by_cases h : o.id = e.id
    · rw [if_pos (by simpa using h), List.map_cons, ih hn.2, if_neg (by rw [← h]; exact hn.1), if_pos (by simp [h])]
    · rw [if_neg (by simpa using h), ih hn.2]
      have : ¬ e.id = o.id := fun x => h x.symm
      simp [this]

theorem appendNew_snd {els : List DElem} (hn : (els.map DElem.id).Nodup) : ∀ (l : List (Int × DElem)) (s : DState),
    (appendNew els s l).2 = (l.map Prod.snd).filter (fun e => decide (e.id ∈ els.map DElem.id))
  | [], s => rfl
  | (k, e) :: l, s => by
    simp only [appendNew, List.map_cons, List.filter_cons]
    rw [filter_id hn e, appendNew_snd hn l]
    split <;> simp_all

/-! ### Specification -/

/-- The element a reference stands for. -/
def found (els : List DElem) (r : Ref) : Option DElem := r.bind (fun x => els.find? (fun e => decide (e.id = x)))
/-- The attribute values a style reference stands for. -/
def look (d : DDoc) (r : Ref) : Option (List (Option (List Char))) := (found d.styles r).map DElem.vals
/-- The attribute values of a region and those its style references stand for. -/
def regionLook (d : DDoc) (e : DElem) : List (Option (List Char)) × List (Option (List (Option (List Char)))) :=
  (e.vals, e.refs.map (look d))
/-- What a content element's references stand for. -/
def useLook (d : DDoc) (u : DUse) :=
  (u.refs.map (look d), (found d.regions u.region).map (regionLook d))

/-- A text that is hashed: that of a style, or of a region with its style references replaced by others. -/
def Hashed (d : DDoc) (t : List Char) : Prop :=
  (∃ s ∈ d.styles, t = textOf s) ∨
  (∃ r ∈ d.regions, ∃ refs : List Ref, t = textOf { r with refs := refs } ∧ ∀ x ∈ refs, ∃ s ∈ d.styles, x = some s.id)

/-- What is assumed of a document: identifiers are unique and ordinary; references resolve; styles do not
refer to styles; attribute values are ordinary (`tameVal`) and there are no foreign attributes; styles and regions
do not have the same number of attributes; and no region refers to two styles with the same values, and a content
element only so that no such pair of references encloses another. -/
structure Clean (h : List Char → Int) (d : DDoc) : Prop where
  ids : ((d.styles ++ d.regions).map DElem.id).Nodup
  plainIds : ∀ s ∈ d.styles, plainId s.id = true
  flat : ∀ s ∈ d.styles, s.refs = []
  values : ∀ e ∈ d.styles ++ d.regions, tameVals e.vals = true ∧ e.wild = []
  differ : ∀ s ∈ d.styles, ∀ r ∈ d.regions, s.vals.length ≠ r.vals.length
  regionRefs : ∀ e ∈ d.regions, ∀ r ∈ e.refs, ∃ s ∈ d.styles, r = some s.id
  useRefs : ∀ u ∈ d.uses, ∀ r ∈ u.refs, ∃ s ∈ d.styles, r = some s.id
  useRegion : ∀ u ∈ d.uses, ∀ x, u.region = some x → ∃ e ∈ d.regions, e.id = x
  noRepeatsIn : ∀ e ∈ d.regions, (e.refs.map (look d)).Nodup
  noNested : ∀ u ∈ d.uses, flatRepeats (u.refs.map (look d))
  hash : ∀ a b, Hashed d a → Hashed d b → h a = h b → a = b

theorem found_mem {els : List DElem} (hn : (els.map DElem.id).Nodup) {w : DElem} (hw : w ∈ els) :
    found els (some w.id) = some w := by
  simp only [found, Option.bind_some]
  induction els with
  | nil => simp at hw
  | cons e els ih =>
    rw [List.map_cons, List.nodup_cons] at hn
    rw [List.find?_cons]
    by_cases he : e.id = w.id
    · simp only [he, decide_true]
      rcases List.mem_cons.mp hw with h | h
      · rw [h]
      · exact absurd (by rw [he]; exact List.mem_map_of_mem h) hn.1
    · simp only [he, decide_false]
      rcases List.mem_cons.mp hw with h | h
      · rw [h] at he; exact absurd rfl he
      · exact ih hn.2 h

theorem mapM_some {α β : Type} {f : α → Option β} {g : α → β} : ∀ {l : List α}, (∀ x ∈ l, f x = some (g x)) →
    l.mapM f = some (l.map g)
  | [], _ => rfl
  | x :: l, h => by
    rw [List.mapM_cons, h x List.mem_cons_self, mapM_some (fun y hy => h y (List.mem_cons_of_mem _ hy))]
    rfl

/-- The result of both passes. -/
structure Passes (h : List Char → Int) (d : DDoc) (styles regions : List DElem) (rn m : Ref → Ref) : Prop where
  /-- the renaming within the styles -/
  style : ∀ v ∈ d.styles, ∃ w ∈ styles, rn (some v.id) = some w.id ∧ m (some v.id) = some w.id ∧ w.vals = v.vals
  styleOf : ∀ w ∈ styles, w ∈ d.styles
  styleFix : ∀ w ∈ styles, rn (some w.id) = some w.id
  styleVals : (styles.map DElem.vals).Nodup
  region : ∀ v ∈ d.regions, ∃ w ∈ d.regions, withRefs m w ∈ regions ∧ rn (some v.id) = some w.id ∧ w.vals = v.vals ∧
    w.refs.map m = v.refs.map m
  regionOf : ∀ e ∈ regions, ∃ w ∈ d.regions, e = withRefs m w
  regionVals : (regions.map (fun e => (e.vals, e.refs))).Nodup

theorem passes (h : List Char → Int) (order : List (Int × DElem) → List (Int × DElem)) (ho : ∀ l, (order l).Perm l)
    (d : DDoc) (hc : Clean h d) :
    let s := collate h {} d.styles
    let a := appendNew d.styles s (order s.hash)
    let s' := collate h a.1 d.regions
    let b := appendNew d.regions s' (order s'.hash)
    Passes h d a.2 b.2 b.1.renamed a.1.renamed := by
  intro s a s' b
  have hids := hc.ids
  rw [List.map_append] at hids
  obtain ⟨nS, nR, nSR⟩ := List.nodup_append.mp hids
  -- the styles
  have wr : ∀ v ∈ d.styles, withRefs (fun _ => none) v = v := by
    intro v hv
    have := hc.flat v hv
    cases v
    simp only at this
    simp [withRefs, this]
  have c1 : Collated h (fun _ => none) d.styles {} s := by
    apply collated h _ _ _ nS
    intro v hv r hr
    rw [hc.flat v hv] at hr
    simp at hr
  have k1 : (s.hash.map Prod.fst).Nodup := c1.nodup (by simp)
  have o1 : ((order s.hash).map Prod.fst).Nodup := ((ho s.hash).map Prod.fst).nodup_iff.mpr k1
  have ent1 : ∀ k e, s.hash.get k = some e → e ∈ d.styles ∧ k = h (textOf e) := by
    intro k e hk
    by_cases hex : ∃ v ∈ d.styles, h (textOf v) = k
    · obtain ⟨v, hv, rfl⟩ := hex
      obtain ⟨w, hw, e1, e2⟩ := c1.hash_own v hv
      rw [wr v hv, wr w hw] at e1 e2
      rw [hk] at e1
      injection e1 with e1
      subst e1
      exact ⟨hw, e2.symm⟩
    · rw [c1.hash_other k (by
        intro v hv e
        rw [wr v hv] at e
        exact hex ⟨v, hv, e⟩)] at hk
      simp [Dict.get] at hk
  obtain ⟨a1, a2, a3, a4⟩ := appendNew_fst d.styles (order s.hash) s o1
  have a2s : a.2 = (order s.hash).map Prod.snd := by
    show (appendNew d.styles s (order s.hash)).2 = _
    rw [appendNew_snd nS, List.filter_eq_self]
    intro e he
    obtain ⟨p, hp, rfl⟩ := List.mem_map.mp he
    have := (ho s.hash).mem_iff.mp hp
    have := (ent1 p.1 p.2 ((Dict.mem_iff_get k1 p.1 p.2).mp this)).1
    simpa using ⟨p.2, this, rfl⟩
  have hplainS : ∀ v ∈ d.styles, Plain v := by
    intro v hv
    obtain ⟨h1, h2⟩ := hc.values v (List.mem_append_left _ hv)
    refine ⟨?_, h1, h2⟩
    rw [hc.flat v hv]; intro r hr; simp at hr
  have key1 : ∀ v ∈ d.styles, ∃ w ∈ d.styles, s.hash.get (h (textOf v)) = some w ∧ h (textOf w) = h (textOf v) ∧ w.vals = v.vals := by
    intro v hv
    obtain ⟨w, hw, e1, e2⟩ := c1.hash_own v hv
    rw [wr v hv, wr w hw] at e1 e2
    have e3 := hc.hash _ _ (.inl ⟨w, hw, rfl⟩) (.inl ⟨v, hv, rfl⟩) e2
    exact ⟨w, hw, e1, e2, (textOf_inj (hplainS w hw) (hplainS v hv) e3).2⟩
  have m1 : ∀ v ∈ d.styles, ∀ w, s.hash.get (h (textOf v)) = some w → a.1.renamed (some v.id) = some w.id := by
    intro v hv w hw
    have h1 : a.1.old.get v.id = some (h (textOf v)) := by
      show (appendNew d.styles s (order s.hash)).1.old.get v.id = _
      rw [a1, c1.old_own v hv, wr v hv]
    have h2 : a.1.new.get (h (textOf v)) = some w.id :=
      a4 _ w ((ho s.hash).mem_iff.mpr ((Dict.mem_iff_get k1 _ _).mpr hw))
    simp only [DState.renamed, Option.bind_some, h1, h2]
  -- the regions
  have refsOf : ∀ v ∈ d.regions, ∀ r ∈ v.refs.map a.1.renamed, ∃ x ∈ d.styles, r = some x.id := by
    intro v hv r hr
    obtain ⟨r0, hr0, rfl⟩ := List.mem_map.mp hr
    obtain ⟨x, hx, rfl⟩ := hc.regionRefs v hv r0 hr0
    obtain ⟨w, hw, e1, _⟩ := key1 x hx
    exact ⟨w, hw, m1 x hx w e1⟩
  have c2 : Collated h a.1.renamed d.regions a.1 s' := by
    apply collated h _ _ _ nR
    intro v hv r hr
    refine ⟨rfl, ?_⟩
    rintro x rfl hx
    obtain ⟨y, hy, he⟩ := hc.regionRefs v hv _ hr
    injection he with he
    exact nSR y.id (List.mem_map_of_mem hy) x hx he.symm
  have hplainR : ∀ v ∈ d.regions, Plain (withRefs a.1.renamed v) := by
    intro v hv
    obtain ⟨h1, h2⟩ := hc.values v (List.mem_append_right _ hv)
    refine ⟨?_, h1, h2⟩
    intro r hr
    obtain ⟨x, hx, rfl⟩ := refsOf v hv r hr
    exact ⟨x.id, rfl, hc.plainIds x hx⟩
  have hashedR : ∀ v ∈ d.regions, Hashed d (textOf (withRefs a.1.renamed v)) :=
    fun v hv => .inr ⟨v, hv, _, rfl, refsOf v hv⟩
  have apart : ∀ v ∈ d.styles, ∀ u ∈ d.regions, h (textOf (withRefs a.1.renamed u)) ≠ h (textOf v) := by
    intro v hv u hu e
    have e1 := hc.hash _ _ (hashedR u hu) (.inl ⟨v, hv, rfl⟩) e
    have e2 := (textOf_inj (hplainR u hu) (hplainS v hv) e1).2
    exact hc.differ v hv u hu (by rw [← e2]; rfl)
  have ha2 : a.1.hash = s.hash := a2
  have k2 : (s'.hash.map Prod.fst).Nodup := c2.nodup (by rw [ha2]; exact k1)
  have o2 : ((order s'.hash).map Prod.fst).Nodup := ((ho s'.hash).map Prod.fst).nodup_iff.mpr k2
  obtain ⟨b1, b2, b3, b4⟩ := appendNew_fst d.regions (order s'.hash) s' o2
  have ent2 : ∀ k e, s'.hash.get k = some e →
      (∃ w ∈ d.regions, e = withRefs a.1.renamed w ∧ k = h (textOf e)) ∨ (e ∈ d.styles ∧ k = h (textOf e)) := by
    intro k e hk
    by_cases hex : ∃ v ∈ d.regions, h (textOf (withRefs a.1.renamed v)) = k
    · obtain ⟨v, hv, rfl⟩ := hex
      obtain ⟨w, hw, e1, e2⟩ := c2.hash_own v hv
      rw [hk] at e1
      injection e1 with e1
      exact .inl ⟨w, hw, e1, by rw [e1]; exact e2.symm⟩
    · rw [c2.hash_other k (fun v hv e => hex ⟨v, hv, e⟩), ha2] at hk
      exact .inr (ent1 k e hk)
  have rnS : ∀ v ∈ d.styles, ∀ w, s.hash.get (h (textOf v)) = some w → b.1.renamed (some v.id) = some w.id := by
    intro v hv w hw
    have h1 : b.1.old.get v.id = some (h (textOf v)) := by
      show (appendNew d.regions s' (order s'.hash)).1.old.get v.id = _
      rw [b1, c2.old_other v.id (fun hm => nSR _ (List.mem_map_of_mem hv) _ hm rfl)]
      show (appendNew d.styles s (order s.hash)).1.old.get v.id = _
      rw [a1, c1.old_own v hv, wr v hv]
    have h0 : s'.hash.get (h (textOf v)) = some w := by
      rw [c2.hash_other _ (fun u hu => apart v hv u hu), ha2]; exact hw
    have h2 : b.1.new.get (h (textOf v)) = some w.id :=
      b4 _ w ((ho s'.hash).mem_iff.mpr ((Dict.mem_iff_get k2 _ _).mpr h0))
    simp only [DState.renamed, Option.bind_some, h1, h2]
  have bs : b.2 = ((order s'.hash).map Prod.snd).filter (fun e => decide (e.id ∈ d.regions.map DElem.id)) :=
    appendNew_snd nR _ _
  have mem_a2 : ∀ w, w ∈ a.2 ↔ ∃ k, s.hash.get k = some w := by
    intro w
    rw [a2s, List.mem_map]
    constructor
    · rintro ⟨p, hp, rfl⟩
      exact ⟨p.1, (Dict.mem_iff_get k1 _ _).mp ((ho s.hash).mem_iff.mp hp)⟩
    · rintro ⟨k, hk⟩
      exact ⟨(k, w), (ho s.hash).mem_iff.mpr ((Dict.mem_iff_get k1 _ _).mpr hk), rfl⟩
  have mem_b2 : ∀ e, e ∈ b.2 ↔ (∃ k, s'.hash.get k = some e) ∧ e.id ∈ d.regions.map DElem.id := by
    intro e
    rw [bs, List.mem_filter, decide_eq_true_eq, List.mem_map]
    refine and_congr_left fun _ => ?_
    constructor
    · rintro ⟨p, hp, rfl⟩
      exact ⟨p.1, (Dict.mem_iff_get k2 _ _).mp ((ho s'.hash).mem_iff.mp hp)⟩
    · rintro ⟨k, hk⟩
      exact ⟨(k, e), (ho s'.hash).mem_iff.mpr ((Dict.mem_iff_get k2 _ _).mpr hk), rfl⟩
  refine ⟨?_, ?_, ?_, ?_, ?_, ?_, ?_⟩
  · intro v hv
    obtain ⟨w, hw, e1, _, e2⟩ := key1 v hv
    exact ⟨w, (mem_a2 w).mpr ⟨_, e1⟩, rnS v hv w e1, m1 v hv w e1, e2⟩
  · intro w hw
    obtain ⟨k, hk⟩ := (mem_a2 w).mp hw
    exact (ent1 k w hk).1
  · intro w hw
    obtain ⟨k, hk⟩ := (mem_a2 w).mp hw
    obtain ⟨h1, h2⟩ := ent1 k w hk
    exact rnS w h1 w (by rw [← h2]; exact hk)
  · rw [a2s, List.map_map]
    unfold List.Nodup at o1 ⊢
    rw [List.pairwise_map] at o1 ⊢
    refine List.Pairwise.imp_of_mem ?_ o1
    intro p q hp hq hne he
    have hp' := ent1 p.1 p.2 ((Dict.mem_iff_get k1 p.1 p.2).mp ((ho s.hash).mem_iff.mp hp))
    have hq' := ent1 q.1 q.2 ((Dict.mem_iff_get k1 q.1 q.2).mp ((ho s.hash).mem_iff.mp hq))
    apply hne
    rw [hp'.2, hq'.2]
    simp only [Function.comp_apply] at he
    simp only [textOf, hc.flat _ hp'.1, hc.flat _ hq'.1, he, (hplainS _ hp'.1).2.2, (hplainS _ hq'.1).2.2]
  · intro v hv
    obtain ⟨w, hw, e1, e2⟩ := c2.hash_own v hv
    have e3 := hc.hash _ _ (hashedR w hw) (hashedR v hv) e2
    obtain ⟨e4, e5⟩ := textOf_inj (hplainR w hw) (hplainR v hv) e3
    refine ⟨w, hw, (mem_b2 _).mpr ⟨⟨_, e1⟩, (List.mem_map_of_mem (f := DElem.id) hw : w.id ∈ _)⟩, ?_, e5, e4⟩
    have h1 : b.1.old.get v.id = some (h (textOf (withRefs a.1.renamed v))) := by
      show (appendNew d.regions s' (order s'.hash)).1.old.get v.id = _
      rw [b1, c2.old_own v hv]
    have h2 : b.1.new.get (h (textOf (withRefs a.1.renamed v))) = some w.id :=
      b4 _ (withRefs a.1.renamed w) ((ho s'.hash).mem_iff.mpr ((Dict.mem_iff_get k2 _ _).mpr e1))
    simp only [DState.renamed, Option.bind_some, h1, h2]
  · intro e he
    obtain ⟨⟨k, hk⟩, hid⟩ := (mem_b2 e).mp he
    rcases ent2 k e hk with ⟨w, hw, e1, _⟩ | ⟨h1, _⟩
    · exact ⟨w, hw, e1⟩
    · exact absurd rfl (nSR _ (List.mem_map_of_mem h1) _ hid)
  · have hsub : ∀ e ∈ b.2, ∃ w ∈ d.regions, e = withRefs a.1.renamed w := by
      intro e he
      obtain ⟨⟨k, hk⟩, hid⟩ := (mem_b2 e).mp he
      rcases ent2 k e hk with ⟨w, hw, e1, _⟩ | ⟨h1, _⟩
      · exact ⟨w, hw, e1⟩
      · exact absurd rfl (nSR _ (List.mem_map_of_mem h1) _ hid)
    have hpair : ((order s'.hash).filter (fun p => decide (p.2.id ∈ d.regions.map DElem.id))).Pairwise
        (fun p q => p.1 ≠ q.1) := by
      refine List.Pairwise.sublist List.filter_sublist ?_
      unfold List.Nodup at o2
      rw [List.pairwise_map] at o2
      exact o2
    have hb2 : b.2 = ((order s'.hash).filter (fun p => decide (p.2.id ∈ d.regions.map DElem.id))).map Prod.snd := by
      rw [bs, List.filter_map]; rfl
    rw [hb2, List.map_map]
    unfold List.Nodup
    rw [List.pairwise_map]
    refine List.Pairwise.imp_of_mem ?_ hpair
    intro p q hp hq hne he
    have mem : ∀ p, p ∈ (order s'.hash).filter (fun p => decide (p.2.id ∈ d.regions.map DElem.id)) →
        p.2.wild = [] ∧ p.1 = h (textOf p.2) := by
      intro p hp
      obtain ⟨h1, h2⟩ := List.mem_filter.mp hp
      rw [decide_eq_true_eq] at h2
      have h3 := (Dict.mem_iff_get k2 p.1 p.2).mp ((ho s'.hash).mem_iff.mp h1)
      rcases ent2 _ _ h3 with ⟨w, hw, e1, e2⟩ | ⟨h4, _⟩
      · refine ⟨?_, e2⟩
        rw [e1]; exact (hplainR w hw).2.2
      · exact absurd rfl (nSR _ (List.mem_map_of_mem h4) _ h2)
    have hp' := mem p hp
    have hq' := mem q hq
    apply hne
    rw [hp'.2, hq'.2]
    simp only [Function.comp_apply, Prod.mk.injEq] at he
    simp only [textOf, he.1, he.2, hp'.1, hq'.1]

theorem same_id {els : List DElem} (hn : (els.map DElem.id).Nodup) {v w : DElem} (hv : v ∈ els) (hw : w ∈ els)
    (h : v.id = w.id) : v = w := by
  have h1 := found_mem hn hv
  rw [h, found_mem hn hw] at h1
  injection h1 with h1
  exact h1.symm

/-- **C42 (partial).**  For every document that meets `Clean`, whatever the order in which dicts give their items:
the result keeps only styles of the original, no two with the same values, and every combination of values that
there was; no two regions with the same values and equal referred styles are left, and exactly the same
combinations as before; and every element of the content refers, in the same order, to styles with the same values and to a
region with the same values, except that of several references to styles with the same values only the first is
left.  Missing: styles that refer to styles, nested repeats, unusual values; and with repeats the order of precedence
may change; see `C42_false_*`. -/
theorem C42_appearance_kept_partial (h : List Char → Int) (order : List (Int × DElem) → List (Int × DElem))
    (ho : ∀ l, (order l).Perm l) (d : DDoc) (hc : Clean h d) :
    ∃ d', dedup h order d = some d' ∧
      ((∀ s ∈ d'.styles, s ∈ d.styles) ∧ (d'.styles.map DElem.vals).Nodup ∧ ∀ s ∈ d.styles, s.vals ∈ d'.styles.map DElem.vals) ∧
      ((d'.regions.map (regionLook d')).Nodup ∧
        ∀ l, l ∈ d'.regions.map (regionLook d') ↔ l ∈ d.regions.map (regionLook d)) ∧
      d'.uses.map (useLook d') = d.uses.map (fun u => (keepFirst (useLook d u).1, (useLook d u).2)) := by
  have P := passes h order ho d hc
  simp only at P
  have hids := hc.ids
  rw [List.map_append] at hids
  obtain ⟨nS, nR, nSR⟩ := List.nodup_append.mp hids
  generalize hS : (appendNew d.styles (collate h {} d.styles) (order (collate h {} d.styles).hash)).2 = styles at P
  generalize hm : (appendNew d.styles (collate h {} d.styles) (order (collate h {} d.styles).hash)).1 = st at P
  generalize hs' : collate h st d.regions = s' at P
  generalize hb : appendNew d.regions s' (order s'.hash) = b at P
  generalize hrn : b.1.renamed = rn at P
  -- the kept styles and regions have unique identifiers
  have nS' : (styles.map DElem.id).Nodup := by
    have := P.styleVals
    unfold List.Nodup at this ⊢
    rw [List.pairwise_map] at this ⊢
    refine List.Pairwise.imp_of_mem ?_ this
    intro v w hv hw hne he
    exact hne (by rw [same_id nS (P.styleOf v hv) (P.styleOf w hw) he])
  have nR' : (b.2.map DElem.id).Nodup := by
    have := P.regionVals
    unfold List.Nodup at this ⊢
    rw [List.pairwise_map] at this ⊢
    refine List.Pairwise.imp_of_mem ?_ this
    intro v w hv hw hne he
    obtain ⟨v0, hv0, rfl⟩ := P.regionOf v hv
    obtain ⟨w0, hw0, rfl⟩ := P.regionOf w hw
    exact hne (by rw [same_id nR hv0 hw0 he])
  have idem : ∀ r, (∃ s ∈ d.styles, r = some s.id) → rn (st.renamed r) = st.renamed r := by
    rintro r ⟨v, hv, rfl⟩
    obtain ⟨w, hw, _, e2, _⟩ := P.style v hv
    rw [e2]; exact P.styleFix w hw
  have same : ∀ r, (∃ s ∈ d.styles, r = some s.id) → rn r = st.renamed r := by
    rintro r ⟨v, hv, rfl⟩
    obtain ⟨w, hw, e1, e2, _⟩ := P.style v hv
    rw [e1, e2]
  -- what references stand for
  have looks : ∀ (d' : DDoc), d'.styles = styles → ∀ r, (∃ s ∈ d.styles, r = some s.id) → look d' (st.renamed r) = look d r := by
    rintro d' hd' r ⟨v, hv, rfl⟩
    obtain ⟨w, hw, _, e2, e3⟩ := P.style v hv
    rw [e2, look, look, hd', found_mem nS' hw, found_mem nS hv]
    simp [e3]
  have nodupRefs : ∀ refs : List Ref, (∀ r ∈ refs, ∃ s ∈ d.styles, r = some s.id) → (refs.map (look d)).Nodup →
      (refs.map st.renamed).Nodup := by
    intro refs hr hn
    unfold List.Nodup at hn ⊢
    rw [List.pairwise_map] at hn ⊢
    refine List.Pairwise.imp_of_mem ?_ hn
    intro x y hx hy hne he
    apply hne
    rw [← looks ⟨styles, [], []⟩ rfl x (hr x hx), ← looks ⟨styles, [], []⟩ rfl y (hr y hy), he]
  have lookStyles : ∀ d' : DDoc, d'.styles = styles → ∀ x y, (∃ v ∈ d.styles, x = st.renamed (some v.id)) →
      (∃ v ∈ d.styles, y = st.renamed (some v.id)) → look d' x = look d' y → x = y := by
    rintro d' hd' x y ⟨v, hv, rfl⟩ ⟨v', hv', rfl⟩ he
    obtain ⟨w, hw, _, e2, _⟩ := P.style v hv
    obtain ⟨w', hw', _, e2', _⟩ := P.style v' hv'
    rw [e2, e2'] at he ⊢
    rw [look, look, hd', found_mem nS' hw, found_mem nS' hw'] at he
    simp only [Option.map_some, Option.some.injEq] at he
    have : w = w' := by
      have hp := P.styleVals
      by_cases hww : w = w'
      · exact hww
      · exfalso
        obtain ⟨i, hi, rfl⟩ := List.getElem_of_mem hw
        obtain ⟨j, hj, rfl⟩ := List.getElem_of_mem hw'
        have := (List.getElem_inj (h₀ := by simpa using hi) (h₁ := by simpa using hj) hp).mp (by simpa using he)
        subst this
        exact hww rfl
    rw [this]
  have lookInj : ∀ d' : DDoc, d'.styles = styles → ∀ u ∈ d.uses, ∀ x ∈ u.refs.map st.renamed, ∀ y ∈ u.refs.map st.renamed,
      look d' x = look d' y → x = y := by
    intro d' hd' u hu x hx y hy
    obtain ⟨r, hr, rfl⟩ := List.mem_map.mp hx
    obtain ⟨r', hr', rfl⟩ := List.mem_map.mp hy
    obtain ⟨v, hv, rfl⟩ := hc.useRefs u hu r hr
    obtain ⟨v', hv', rfl⟩ := hc.useRefs u hu r' hr'
    exact lookStyles d' hd' _ _ ⟨v, hv, rfl⟩ ⟨v', hv', rfl⟩
  -- the three replacements succeed
  have r1 : styles.mapM (replaceElem rn) = some styles := by
    rw [mapM_some (g := id), List.map_id]
    intro e he
    have hf := hc.flat e (P.styleOf e he)
    rw [replaceElem, hf]
    cases e
    simp only at hf
    subst hf
    rfl
  have r2 : b.2.mapM (replaceElem rn) = some b.2 := by
    rw [mapM_some (g := id), List.map_id]
    intro e he
    obtain ⟨w, hw, rfl⟩ := P.regionOf e he
    have hmap : (withRefs st.renamed w).refs.map rn = (withRefs st.renamed w).refs := by
      simp only [withRefs, List.map_map]
      apply List.map_congr_left
      intro r hr
      exact idem r (hc.regionRefs w hw r hr)
    rw [replaceElem, replaced_map]
    · rw [hmap]; rfl
    · rw [hmap]
      exact nodupRefs w.refs (hc.regionRefs w hw) (hc.noRepeatsIn w hw)
  have r3 : d.uses.mapM (replaceUse rn) = some (d.uses.map (fun u => ⟨keepFirst (u.refs.map st.renamed), rn u.region⟩)) := by
    apply mapM_some
    intro u hu
    have hmap : u.refs.map rn = u.refs.map st.renamed := by
      apply List.map_congr_left
      intro r hr
      exact same r (hc.useRefs u hu r hr)
    rw [replaceUse, replaced_keepFirst]
    · rw [hmap]; rfl
    · rw [hmap]
      have h1 := hc.noNested u hu
      rw [show u.refs.map (look d) = (u.refs.map st.renamed).map (look ⟨styles, [], []⟩) by
        rw [List.map_map]
        apply List.map_congr_left
        intro r hr
        exact (looks ⟨styles, [], []⟩ rfl r (hc.useRefs u hu r hr)).symm] at h1
      exact flatRepeats_map (lookInj ⟨styles, [], []⟩ rfl u hu) h1
  refine ⟨⟨styles, b.2, d.uses.map (fun u => ⟨keepFirst (u.refs.map st.renamed), rn u.region⟩)⟩, ?_, ?_, ?_, ?_⟩
  · unfold dedup
    simp only
    rw [hm, hS, hs', hb, hrn, r1, r2, r3]
    rfl
  · refine ⟨P.styleOf, P.styleVals, ?_⟩
    intro v hv
    obtain ⟨w, hw, _, _, e⟩ := P.style v hv
    rw [← e]; exact List.mem_map_of_mem hw
  · have rl : ∀ (d' : DDoc), d'.styles = styles → ∀ w ∈ d.regions, regionLook d' (withRefs st.renamed w) = regionLook d w := by
      intro d' hd' w hw
      simp only [regionLook, withRefs, List.map_map]
      congr 1
      apply List.map_congr_left
      intro r hr
      exact looks d' hd' r (hc.regionRefs w hw r hr)
    refine ⟨?_, ?_⟩
    · simp only
      have := P.regionVals
      unfold List.Nodup at this ⊢
      rw [List.pairwise_map] at this ⊢
      refine List.Pairwise.imp_of_mem ?_ this
      intro v w hv hw hne he
      obtain ⟨v0, hv0, rfl⟩ := P.regionOf v hv
      obtain ⟨w0, hw0, rfl⟩ := P.regionOf w hw
      apply hne
      simp only [regionLook, Prod.mk.injEq] at he
      refine Prod.ext he.1 ?_
      have inj : ∀ xs ys : List Ref, (∀ x ∈ xs, ∃ v ∈ d.styles, x = st.renamed (some v.id)) →
          (∀ x ∈ ys, ∃ v ∈ d.styles, x = st.renamed (some v.id)) →
          xs.map (look ⟨styles, b.2, d.uses.map (fun u => ⟨keepFirst (u.refs.map st.renamed), rn u.region⟩)⟩) =
          ys.map (look ⟨styles, b.2, d.uses.map (fun u => ⟨keepFirst (u.refs.map st.renamed), rn u.region⟩)⟩) → xs = ys := by
        intro xs
        induction xs with
        | nil => intro ys _ _ he; cases ys with
          | nil => rfl
          | cons y ys => simp at he
        | cons x xs ih =>
          intro ys hx hy he
          cases ys with
          | nil => simp at he
          | cons y ys =>
            simp only [List.map_cons, List.cons.injEq] at he
            rw [lookStyles _ rfl x y (hx x List.mem_cons_self) (hy y List.mem_cons_self) he.1,
              ih ys (fun z hz => hx z (List.mem_cons_of_mem _ hz)) (fun z hz => hy z (List.mem_cons_of_mem _ hz)) he.2]
      have form : ∀ w ∈ d.regions, ∀ x ∈ (withRefs st.renamed w).refs, ∃ v ∈ d.styles, x = st.renamed (some v.id) := by
        intro w hw x hx
        obtain ⟨r, hr, rfl⟩ := List.mem_map.mp hx
        obtain ⟨v, hv, rfl⟩ := hc.regionRefs w hw r hr
        exact ⟨v, hv, rfl⟩
      exact inj _ _ (form v0 hv0) (form w0 hw0) he.2
    · intro l
      simp only [List.mem_map]
      constructor
      · rintro ⟨e, he, rfl⟩
        obtain ⟨w, hw, rfl⟩ := P.regionOf e he
        exact ⟨w, hw, (rl _ rfl w hw).symm⟩
      · rintro ⟨v, hv, rfl⟩
        obtain ⟨w, hw, h1, _, h3, h4⟩ := P.region v hv
        refine ⟨_, h1, ?_⟩
        rw [← rl ⟨styles, b.2, d.uses.map (fun u => ⟨keepFirst (u.refs.map st.renamed), rn u.region⟩)⟩ rfl v hv]
        simp only [regionLook, withRefs, h3, h4]
  · simp only [List.map_map]
    apply List.map_congr_left
    intro u hu
    simp only [Function.comp_apply, useLook]
    refine Prod.ext ?_ ?_
    · simp only
      rw [← keepFirst_map (lookInj _ rfl u hu), List.map_map]
      congr 1
      apply List.map_congr_left
      intro r hr
      exact looks _ rfl r (hc.useRefs u hu r hr)
    · simp only
      cases hur : u.region with
      | none =>
        have : rn none = none := by rw [← hrn]; rfl
        rw [this]; rfl
      | some x =>
        obtain ⟨v, hv, rfl⟩ := hc.useRegion u hu x hur
        obtain ⟨w, hw, h1, h2, h3, h4⟩ := P.region v hv
        have e1 : found b.2 (some w.id) = some (withRefs st.renamed w) := found_mem nR' h1
        rw [h2, e1, found_mem nR hv]
        simp only [Option.map_some, Option.some.injEq]
        have : (withRefs st.renamed w).refs = v.refs.map st.renamed := h4
        simp only [regionLook]
        refine Prod.ext h3 ?_
        simp only
        rw [this, List.map_map]
        apply List.map_congr_left
        intro r hr
        exact looks _ rfl r (hc.regionRefs v hv r hr)

/-- Whatever the document, no reference is added: every style reference of a result is the replacement of one
that was in the same list. -/
theorem C42_no_reference_added {mp : Ref → Ref} {l r : List Ref} (h : replaced mp l = some r) : ∀ x ∈ r, ∃ y ∈ l, x = mp y := by
  intro x hx
  obtain ⟨y, hy, e⟩ := List.mem_map.mp (replaced_mem h x hx)
  exact ⟨y, hy, e.symm⟩

/-! ### A case -/

/-- A hash without collisions. -/
def code : List Char → Int
  | [] => 0
  | c :: r => ((c.toNat : Int) + 1) + 2000000 * code r

theorem code_nonneg : ∀ l, 0 ≤ code l
  | [] => by simp [code]
  | c :: r => by have := code_nonneg r; simp only [code]; omega

theorem char_bound (c : Char) : c.toNat < 1114112 := by
  have := c.valid
  unfold UInt32.isValidChar Nat.isValidChar at this
  unfold Char.toNat
  omega

theorem code_inj : ∀ a b, code a = code b → a = b
  | [], [], _ => rfl
  | [], c :: r, h => by have := code_nonneg r; simp only [code] at h; omega
  | c :: r, [], h => by have := code_nonneg r; simp only [code] at h; omega
  | c :: r, c' :: r', h => by
    simp only [code] at h
    have h1 := char_bound c
    have h2 := char_bound c'
    have h3 : c.toNat = c'.toNat := by omega
    have h4 : code r = code r' := by omega
    rw [code_inj r r' h4, Char.ext_iff.mpr (UInt32.toNat_inj.mp h3)]

/-- Two styles with the same values, regions that differ only in which of them they refer to, an element that refers to
one of the two styles, another style, and the other of the two. -/
def exDedup : DDoc :=
  { styles := [⟨"s1", [], [some "50%".toList, none], []⟩, ⟨"s2", [], [some "50%".toList, some "red".toList], []⟩,
               ⟨"s3", [], [some "50%".toList, none], []⟩]
    regions := [⟨"r1", [some "s1"], [some "10% 20%".toList], []⟩, ⟨"r2", [some "s3"], [some "10% 20%".toList], []⟩]
    uses := [⟨[some "s1", some "s2"], some "r1"⟩, ⟨[some "s2", some "s3"], none⟩, ⟨[some "s1", some "s2", some "s3"], some "r2"⟩] }

theorem exDedup_clean : Clean code exDedup where
  ids := by decide
  plainIds := by decide
  flat := by decide
  values := by decide
  differ := by decide
  regionRefs := by decide
  useRefs := by decide
  useRegion := by
    intro u hu x hx
    have : ∀ u ∈ exDedup.uses, u.region.all (fun x => exDedup.regions.any (fun e => decide (e.id = x))) = true := by decide
    have := this u hu
    rw [hx] at this
    simpa using this
  noRepeatsIn := by decide
  noNested := by
    intro u hu
    simp only [exDedup, List.mem_cons, List.not_mem_nil, or_false] at hu
    rcases hu with rfl | rfl | rfl
    · exact flatRepeats_of_nodup (by decide)
    · exact flatRepeats_of_nodup (by decide)
    · exact ⟨fun _ => by decide, ⟨fun h => absurd h (by decide), ⟨fun h => absurd h (by decide), trivial⟩⟩⟩
  hash := fun a b _ _ h => code_inj a b h

example : ∃ d', dedup code id exDedup = some d' ∧ d'.uses.map (useLook d') =
    exDedup.uses.map (fun u => (keepFirst (useLook exDedup u).1, (useLook exDedup u).2)) := by
  obtain ⟨d', h1, _, _, h2⟩ := C42_appearance_kept_partial code id (fun l => List.Perm.refl l) exDedup exDedup_clean
  exact ⟨d', h1, h2⟩

/-- What it comes to: one of the two styles and one of the two regions are left. -/
example : (dedup code id exDedup).map (fun d => (d.styles.map DElem.id, d.regions.map (fun e => (e.id, e.refs)), d.uses)) =
    some (["s3", "s2"], [("r2", [some "s3"])],
      [⟨[some "s3", some "s2"], some "r2"⟩, ⟨[some "s2", some "s3"], none⟩, ⟨[some "s3", some "s2"], some "r2"⟩]) := by
  decide +kernel

/-! ### What the text of an element tells apart -/

/-- A foreign attribute as they come: no percent sign in the namespace or in the name, and the namespace neither
empty, nor a bar, nor beginning with a space.  The value may be anything. -/
def ForeignOk (w : Option (List Char) × List Char × List Char) : Prop :=
  (∀ n, w.1 = some n → n ≠ [] ∧ n ≠ ['|'] ∧ n.head? ≠ some ' ' ∧ '%' ∉ n) ∧ '%' ∉ w.2.1

/-- **C42, partial.** Elements of the same kind with at most one foreign attribute are told apart exactly if they
differ in their references, in the value of a declared attribute or in the foreign attribute.  Missing: two
and more foreign attributes (`C42_false_foreign_attributes`) and values like a bar (`C42_false_bar`). -/
theorem C42_told_apart_partial (e f : DElem) (he : plainRefs e.refs) (hf : plainRefs f.refs)
    (hev : tameVals e.vals = true) (hfv : tameVals f.vals = true) (hkind : e.vals.length = f.vals.length)
    (hew : e.wild.length ≤ 1) (hfw : f.wild.length ≤ 1) (heok : ∀ w ∈ e.wild, ForeignOk w) (hfok : ∀ w ∈ f.wild, ForeignOk w) :
    textOf e = textOf f ↔ e.refs = f.refs ∧ e.vals = f.vals ∧ e.wild = f.wild := by
  refine ⟨?_, fun ⟨h1, h2, h3⟩ => by simp only [textOf, h1, h2, h3]⟩
  intro h
  have tm : ∀ {g : DElem}, plainRefs g.refs → tameVals g.vals = true → tameVals (refsVal g.refs :: g.vals) = true := by
    intro g h1 h2
    simp only [tameVals, List.all_cons, Bool.and_eq_true]
    exact ⟨refsVal_tame h1, h2⟩
  have fresh : ∀ {l : List (Option (List Char) × List Char × List Char)}, (∀ w ∈ l, ForeignOk w) →
      Fresh (l.flatMap (fun w => w.1.getD ['|'] ++ '%' :: w.2.1 ++ '%' :: w.2.2)) := by
    intro l hl
    cases l with
    | nil => intro r; simp
    | cons w l =>
      obtain ⟨n, m, v⟩ := w
      have hw := hl _ List.mem_cons_self
      intro r
      rw [List.flatMap_cons]
      cases n with
      | none => simp
      | some n =>
        obtain ⟨h1, _, h3, h4⟩ := hw.1 n rfl
        cases n with
        | nil => exact absurd rfl h1
        | cons c n =>
          simp only [List.head?_cons, ne_eq, Option.some.injEq, List.mem_cons, not_or] at h3 h4
          simp only [Option.getD_some, List.cons_append, ne_eq, List.cons.injEq, not_and]
          exact ⟨fun hc => absurd hc.symm h4.1, fun hc => absurd hc h3⟩
  have h' : (refsVal e.refs :: e.vals).flatMap enc ++ e.wild.flatMap (fun w => w.1.getD ['|'] ++ '%' :: w.2.1 ++ '%' :: w.2.2) =
      (refsVal f.refs :: f.vals).flatMap enc ++ f.wild.flatMap (fun w => w.1.getD ['|'] ++ '%' :: w.2.1 ++ '%' :: w.2.2) := h
  obtain ⟨h1, h2⟩ := vals_inj_tail (tm he hev) (tm hf hfv) (by simp [hkind]) (fresh heok) (fresh hfok) h'
  rw [List.cons.injEq] at h1
  refine ⟨refsVal_inj he hf h1.1, h1.2, ?_⟩
  generalize e.wild = a at *
  generalize f.wild = b at *
  match a, b, hew, hfw with
  | [], [], _, _ => rfl
  | [], w :: b, _, _ => exact absurd (congrArg List.length h2) (by simp)
  | w :: a, [], _, _ => exact absurd (congrArg List.length h2) (by simp)
  | _ :: _ :: _, _ :: _, h, _ => simp at h
  | _ :: _, _ :: _ :: _, _, h => simp at h
  | [(n, m, v)], [(n', m', v')], _, _ =>
    have k1 := heok _ List.mem_cons_self
    have k2 := hfok _ List.mem_cons_self
    simp only [List.flatMap_cons, List.flatMap_nil, List.append_nil, List.append_assoc, List.cons_append] at h2
    have np : ∀ {n : Option (List Char)} {m v : List Char}, ForeignOk (n, m, v) → '%' ∉ n.getD ['|'] := by
      intro n m v hk
      cases n with
      | none => decide
      | some n => exact (hk.1 n rfl).2.2.2
    obtain ⟨h3, h4⟩ := split_percent (np k1) (np k2) h2
    obtain ⟨h5, h6⟩ := split_percent k1.2 k2.2 h4
    have h7 : n = n' := by
      cases n with
      | none =>
        cases n' with
        | none => rfl
        | some n' => exact absurd h3.symm (k2.1 n' rfl).2.1
      | some n =>
        cases n' with
        | none => exact absurd h3 (k1.1 n rfl).2.1
        | some n' => simp at h3; rw [h3]
    simp only at h5 h6
    rw [h7, h5, h6]

/-- Two styles of the same kind with a foreign attribute each, of which only the value differs. -/
example : ∃ e f : DElem, plainRefs e.refs ∧ plainRefs f.refs ∧ tameVals e.vals = true ∧ tameVals f.vals = true ∧
    e.vals.length = f.vals.length ∧ e.wild.length ≤ 1 ∧ f.wild.length ≤ 1 ∧ (∀ w ∈ e.wild, ForeignOk w) ∧
    (∀ w ∈ f.wild, ForeignOk w) ∧ e.refs = f.refs ∧ e.vals = f.vals ∧ e.wild ≠ f.wild ∧ textOf e ≠ textOf f := by
  refine ⟨⟨"a", [some "s"], [some "50%".toList, none], [(some "urn:x".toList, "kind".toList, "1%".toList)]⟩,
    ⟨"b", [some "s"], [some "50%".toList, none], [(some "urn:x".toList, "kind".toList, "2%".toList)]⟩, ?_⟩
  have hr : plainRefs [some "s"] := by intro r hr; simp at hr; exact ⟨"s", hr, by decide⟩
  have hk : ∀ v, ForeignOk (some "urn:x".toList, "kind".toList, v) := by
    intro v
    refine ⟨?_, show '%' ∉ "kind".toList by decide⟩
    intro n hn
    simp only [Option.some.injEq] at hn
    rw [← hn]
    decide
  refine ⟨hr, hr, by decide, by decide, rfl, by decide, by decide, ?_, ?_, rfl, rfl, by decide, by decide⟩
  · intro w hw; simp only [List.mem_singleton] at hw; rw [hw]; exact hk _
  · intro w hw; simp only [List.mem_singleton] at hw; rw [hw]; exact hk _

/-! ### Where it fails -/

/-- With two foreign attributes the text no longer tells where the value of the first ends: these two styles count
as the same. -/
theorem C42_false_foreign_attributes : ∃ s t : DElem, s.refs = t.refs ∧ s.vals = t.vals ∧ s.wild ≠ t.wild ∧ textOf s = textOf t :=
  ⟨⟨"s", [], [none], [(some ['u'], ['a'], ['x']), (some ['u', 'v'], ['b'], ['y'])]⟩,
   ⟨"t", [], [none], [(some ['u'], ['a'], ['x', 'u']), (some ['v'], ['b'], ['y'])]⟩, rfl, rfl, by decide, by decide⟩

/-- Of repeated references the first is kept, although the last counts: the element referred to `s1`, `s2` and `s3`,
which is the same as `s1`, so that `s2` did not count where both have a value; afterwards it does. -/
theorem C42_false_precedence : Clean code exDedup ∧
    (useLook exDedup ⟨[some "s1", some "s2", some "s3"], some "r2"⟩).1.getLast? = some (some [some "50%".toList, none]) ∧
    (dedup code id exDedup).map (fun d => (d.uses.map (fun u => (useLook d u).1)).getLast?) =
      some (some [some [some "50%".toList, none], some [some "50%".toList, some "red".toList]]) :=
  ⟨exDedup_clean, by decide, by decide +kernel⟩

/-- A reference from a style to a style is lost. -/
theorem C42_false_style_reference :
    (dedup code id ⟨[⟨"s1", [], [none], []⟩, ⟨"s2", [some "s1"], [some "red".toList], []⟩], [], []⟩).map
      (fun d => d.styles.map (fun e => (e.id, e.refs))) = some [("s1", []), ("s2", [none])] := by decide +kernel

/-- Nested repeats: an error, or a reference that is not a repeat is lost. -/
theorem C42_false_nested_repeats :
    replaced (fun r => r) [some "y", some "x", some "x", some "y"] = none ∧
    replaced (fun r => r) [some "y", some "x", some "x", some "y", some "z"] = some [some "y", some "x", some "y"] := by decide

/-- A value that is a bar is taken for an absent one. -/
theorem C42_false_bar : ∃ s t : DElem, s.vals ≠ t.vals ∧ textOf s = textOf t :=
  ⟨⟨"s", [], [some ['|']], []⟩, ⟨"t", [], [none], []⟩, by decide, by decide⟩

/-- Regions that differ only in repeated references are both kept and become the same. -/
theorem C42_false_region_repeats :
    (dedup code id ⟨[⟨"s", [], [none], []⟩], [⟨"r1", [some "s"], [none, none], []⟩, ⟨"r2", [some "s", some "s"], [none, none], []⟩], []⟩).map
      (fun d => d.regions.map (fun e => (e.id, e.refs))) = some [("r1", [some "s"]), ("r2", [some "s"])] := by decide +kernel

/-! ### The node -/

/-- The documents emitted. -/
def dedupOut : List DedupRes → List (String × Nat × DDoc)
  | [] => []
  | .emitted sid num d :: rs => (sid, num, d) :: dedupOut rs
  | _ :: rs => dedupOut rs

/-- A series of deliveries. -/
def runDedup (h : List Char → Int) (order : List (Int × DElem) → List (Int × DElem)) (out : String) (s : DedupNode) :
    List DedupIn → DedupNode × List DedupRes
  | [] => (s, [])
  | i :: is =>
    let r := dedupNode h order out s i
    let rs := runDedup h order out r.1 is
    (rs.1, r.2 :: rs.2)

/-- Every document the node emits is a received document of one and the same sequence, deduplicated, with its
number, under the configured identifier. -/
theorem C42_node_emits_deduplicated (h : List Char → Int) (order : List (Int × DElem) → List (Int × DElem)) (out : String)
    (is : List DedupIn) : ∃ sid0, ∀ o ∈ dedupOut (runDedup h order out {} is).2,
      o.1 = out ∧ ∃ d, DedupIn.doc sid0 o.2.1 d ∈ is ∧ sid0 ≠ out ∧ dedup h order d = some o.2.2 := by
  have known : ∀ (is : List DedupIn) (s : DedupNode) (sid0 : String), s.first = some sid0 →
      ∀ o ∈ dedupOut (runDedup h order out s is).2, o.1 = out ∧ ∃ d, DedupIn.doc sid0 o.2.1 d ∈ is ∧ sid0 ≠ out ∧ dedup h order d = some o.2.2 := by
    intro is
    induction is with
    | nil => intro s sid0 _ o ho; simp [runDedup, dedupOut] at ho
    | cons i is ih =>
      intro s sid0 hf o ho
      have lift : (o.1 = out ∧ ∃ d, DedupIn.doc sid0 o.2.1 d ∈ is ∧ sid0 ≠ out ∧ dedup h order d = some o.2.2) →
          o.1 = out ∧ ∃ d, DedupIn.doc sid0 o.2.1 d ∈ i :: is ∧ sid0 ≠ out ∧ dedup h order d = some o.2.2 :=
        fun ⟨h0, d, h1, h2⟩ => ⟨h0, d, List.mem_cons_of_mem _ h1, h2⟩
      cases i with
      | msg m =>
        simp only [runDedup, dedupNode, dedupOut] at ho
        exact lift (ih s sid0 hf o ho)
      | doc sid num d =>
        rw [runDedup] at ho
        simp only [dedupNode] at ho
        split at ho
        · exact lift (ih _ sid0 hf o ho)
        · rename_i hne
          split at ho
          · split at ho
            · exact lift (ih ⟨(checkSeen s.seen sid num).2, s.first⟩ sid0 hf o ho)
            · rename_i hsid
              have hd : sid = sid0 := by
                rw [hf] at hsid; simpa using Eq.symm (Decidable.not_not.mp hsid)
              subst hd
              cases hr : dedup h order d with
              | none =>
                rw [hr] at ho
                simp only [dedupOut] at ho
                exact lift (ih _ sid rfl o ho)
              | some d' =>
                rw [hr] at ho
                simp only [dedupOut, List.mem_cons] at ho
                rcases ho with ho | ho
                · rw [ho]; exact ⟨rfl, d, List.mem_cons_self, hne, hr⟩
                · exact lift (ih _ sid rfl o ho)
          · exact lift (ih ⟨(checkSeen s.seen sid num).2, s.first⟩ sid0 hf o ho)
  have gen : ∀ (is : List DedupIn) (s : DedupNode), s.first = none → ∃ sid0, ∀ o ∈ dedupOut (runDedup h order out s is).2,
      o.1 = out ∧ ∃ d, DedupIn.doc sid0 o.2.1 d ∈ is ∧ sid0 ≠ out ∧ dedup h order d = some o.2.2 := by
    intro is
    induction is with
    | nil => intro s _; exact ⟨"", by simp [runDedup, dedupOut]⟩
    | cons i is ih =>
      intro s hf
      have lift : ∀ s', s'.first = none → dedupOut (runDedup h order out s (i :: is)).2 = dedupOut (runDedup h order out s' is).2 →
          ∃ sid0, ∀ o ∈ dedupOut (runDedup h order out s (i :: is)).2,
            o.1 = out ∧ ∃ d, DedupIn.doc sid0 o.2.1 d ∈ i :: is ∧ sid0 ≠ out ∧ dedup h order d = some o.2.2 := by
        intro s' hs' he
        rw [he]
        obtain ⟨sid0, hh⟩ := ih s' hs'
        exact ⟨sid0, fun o ho => ⟨(hh o ho).1, (hh o ho).2.elim fun d h => ⟨d, List.mem_cons_of_mem _ h.1, h.2⟩⟩⟩
      cases i with
      | msg m => exact lift s hf (by simp [runDedup, dedupNode, dedupOut])
      | doc sid num d =>
        by_cases h1 : sid = out
        · exact lift s hf (by simp [runDedup, dedupNode, dedupOut, h1])
        · by_cases h2 : (checkSeen s.seen sid num).1 = true
          · refine ⟨sid, ?_⟩
            intro o ho
            rw [runDedup] at ho
            simp only [dedupNode, if_neg h1, h2, if_true, hf, Option.getD_none, ne_eq, not_true_eq_false, if_false] at ho
            have up : (o.1 = out ∧ ∃ d', DedupIn.doc sid o.2.1 d' ∈ is ∧ sid ≠ out ∧ dedup h order d' = some o.2.2) →
                o.1 = out ∧ ∃ d', DedupIn.doc sid o.2.1 d' ∈ DedupIn.doc sid num d :: is ∧ sid ≠ out ∧ dedup h order d' = some o.2.2 :=
              fun ⟨h0, d', h1, h2⟩ => ⟨h0, d', List.mem_cons_of_mem _ h1, h2⟩
            cases hr : dedup h order d with
            | none =>
              rw [hr] at ho
              simp only [dedupOut] at ho
              exact up (known is _ sid rfl o ho)
            | some d' =>
              rw [hr] at ho
              simp only [dedupOut, List.mem_cons] at ho
              rcases ho with ho | ho
              · rw [ho]; exact ⟨rfl, d, List.mem_cons_self, h1, hr⟩
              · exact up (known is _ sid rfl o ho)
          · exact lift ⟨(checkSeen s.seen sid num).2, s.first⟩ hf (by simp [runDedup, dedupNode, dedupOut, h1, h2])
  exact gen is {} rfl

example : (dedupOut (runDedup code id "o" {} [.doc "a" 1 exDedup, .msg "m", .doc "b" 1 exDedup, .doc "a" 1 exDedup, .doc "a" 2 exDedup]).2).map
    (fun o => (o.1, o.2.1)) = [("o", 1), ("o", 2)] := by decide +kernel

end Verif.Dedup
