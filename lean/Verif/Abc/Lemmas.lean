import Verif.Abc.Model
/-
Lemmas about the model of classes: the method resolution order keeps the order of every base, lookups through a
base, and what is known of every class that has been made.
-/
namespace Verif.Abc

/-! ### The order of the bases -/

theorem merge_zero (ls) : merge 0 ls = if ls.all List.isEmpty then some [] else none := by
  rw [merge]

theorem merge_succ (n ls) : merge (n + 1) ls = if ls.all List.isEmpty then some [] else
    match pick ls with
    | none => none
    | some h => (merge n (ls.map (dropHead h))).map (h :: ·) := by
  rw [merge]; rfl

theorem dropHead_sub {h l r} (hr : List.Sublist (dropHead h l) r) : List.Sublist l (h :: r) := by
  unfold dropHead at hr
  cases l with
  | nil => simp
  | cons a t =>
    simp only [List.head?_cons, Option.some.injEq, List.tail_cons] at hr
    by_cases ha : a = h
    · rw [if_pos ha] at hr; subst ha; exact hr.cons_cons _
    · rw [if_neg ha] at hr; exact hr.cons _

theorem merge_sub : ∀ (n : Nat) (ls r), merge n ls = some r → ∀ l ∈ ls, List.Sublist l r
  | n, ls, r, h, l, hl => by
    have base : ls.all List.isEmpty = true → List.Sublist l r := by
      intro he
      have : l = [] := by simpa using List.all_eq_true.mp he l hl
      subst this; simp
    cases n with
    | zero =>
      rw [merge_zero] at h
      by_cases he : ls.all List.isEmpty = true
      · exact base he
      · rw [if_neg he] at h; cases h
    | succ n =>
      rw [merge_succ] at h
      by_cases he : ls.all List.isEmpty = true
      · exact base he
      · rw [if_neg he] at h
        cases hp : pick ls with
        | none => rw [hp] at h; cases h
        | some x =>
          rw [hp] at h
          cases hm : merge n (ls.map (dropHead x)) with
          | none => simp [hm] at h
          | some r' =>
            simp only [hm, Option.map_some, Option.some.injEq] at h
            subst h
            exact dropHead_sub (merge_sub n _ _ hm _ (List.mem_map_of_mem hl))

theorem dropHead_mem {h l x} (hx : x ∈ dropHead h l) : x ∈ l := by
  unfold dropHead at hx
  split at hx
  · exact List.mem_of_mem_tail hx
  · exact hx

theorem pick_mem {ls h} (hp : pick ls = some h) : (∃ l ∈ ls, l.head? = some h) ∧ free ls h = true := by
  unfold pick at hp
  refine ⟨?_, ?_⟩
  · have := List.mem_of_find?_eq_some hp
    simpa [List.mem_filterMap] using this
  · exact List.find?_some hp

theorem merge_mem : ∀ (n : Nat) (ls r), merge n ls = some r → ∀ x ∈ r, ∃ l ∈ ls, x ∈ l
  | n, ls, r, h, x, hx => by
    have base : (some [] : Option (List Nat)) = some r → ∃ l ∈ ls, x ∈ l := by
      intro e; cases e; simp at hx
    cases n with
    | zero =>
      rw [merge_zero] at h
      by_cases he : ls.all List.isEmpty = true
      · rw [if_pos he] at h; exact base h
      · rw [if_neg he] at h; cases h
    | succ n =>
      rw [merge_succ] at h
      by_cases he : ls.all List.isEmpty = true
      · rw [if_pos he] at h; exact base h
      · rw [if_neg he] at h
        cases hp : pick ls with
        | none => rw [hp] at h; cases h
        | some y =>
          rw [hp] at h
          cases hm : merge n (ls.map (dropHead y)) with
          | none => simp [hm] at h
          | some r' =>
            simp only [hm, Option.map_some, Option.some.injEq] at h
            subst h
            rcases List.mem_cons.mp hx with rfl | hx'
            · obtain ⟨l, hl, hh⟩ := (pick_mem hp).1
              exact ⟨l, hl, List.mem_of_head? hh⟩
            · obtain ⟨l, hl, hxl⟩ := merge_mem n _ _ hm x hx'
              obtain ⟨l', hl', rfl⟩ := List.mem_map.mp hl
              exact ⟨l', hl', dropHead_mem hxl⟩

theorem merge_nodup : ∀ (n : Nat) (ls r), merge n ls = some r → r.Nodup
  | n, ls, r, h => by
    have base : (some [] : Option (List Nat)) = some r → r.Nodup := by
      intro e; cases e; simp
    cases n with
    | zero =>
      rw [merge_zero] at h
      by_cases he : ls.all List.isEmpty = true
      · rw [if_pos he] at h; exact base h
      · rw [if_neg he] at h; cases h
    | succ n =>
      rw [merge_succ] at h
      by_cases he : ls.all List.isEmpty = true
      · rw [if_pos he] at h; exact base h
      · rw [if_neg he] at h
        cases hp : pick ls with
        | none => rw [hp] at h; cases h
        | some y =>
          rw [hp] at h
          cases hm : merge n (ls.map (dropHead y)) with
          | none => simp [hm] at h
          | some r' =>
            simp only [hm, Option.map_some, Option.some.injEq] at h
            subst h
            refine List.nodup_cons.mpr ⟨?_, merge_nodup n _ _ hm⟩
            intro hy
            obtain ⟨l, hl, hyl⟩ := merge_mem n _ _ hm y hy
            obtain ⟨l', hl', rfl⟩ := List.mem_map.mp hl
            have hf := List.all_eq_true.mp (pick_mem hp).2 l' hl'
            simp only [List.contains_eq_mem, Bool.not_eq_true', decide_eq_false_iff_not] at hf
            unfold dropHead at hyl
            split at hyl
            · exact hf hyl
            · rename_i hne
              cases l' with
              | nil => simp at hyl
              | cons a t =>
                rcases List.mem_cons.mp hyl with rfl | ht
                · exact hne rfl
                · exact hf ht

theorem merge_empty {ls : List (List Nat)} (h : ls.all List.isEmpty = true) : ∀ n, merge n ls = some []
  | 0 => by rw [merge_zero, if_pos h]
  | n + 1 => by rw [merge_succ, if_pos h]

theorem dropHead_len (h : Nat) (l : List Nat) : (dropHead h l).length ≤ l.length := by
  unfold dropHead; split <;> simp

/-- Taking a head makes the lists shorter. -/
theorem drop_sum {h : Nat} : ∀ {ls : List (List Nat)}, (∃ l ∈ ls, l.head? = some h) →
    ((ls.map (dropHead h)).map List.length).sum < (ls.map List.length).sum
  | [], ⟨_, hl, _⟩ => absurd hl List.not_mem_nil
  | a :: ls, ⟨l, hl, hh⟩ => by
    have all : ∀ ls : List (List Nat), ((ls.map (dropHead h)).map List.length).sum ≤ (ls.map List.length).sum := by
      intro ls
      induction ls with
      | nil => simp
      | cons b t ih =>
        have := dropHead_len h b
        simp only [List.map_cons, List.sum_cons]
        omega
    simp only [List.map_cons, List.sum_cons]
    rcases List.mem_cons.mp hl with rfl | hl
    · have h1 : (dropHead h l).length < l.length := by
        unfold dropHead
        rw [if_pos hh]
        cases l with
        | nil => simp at hh
        | cons b t => simp
      have := all ls
      omega
    · have h1 := drop_sum ⟨l, hl, hh⟩
      have := dropHead_len h a
      omega

/-- The number of steps allowed does not matter if it is as large as the number of elements: the merge fails only if
no head can be taken. -/
theorem merge_fuel : ∀ (n k : Nat) (ls : List (List Nat)), (ls.map List.length).sum ≤ n → merge (n + k) ls = merge n ls
  | 0, k, ls, h => by
    have he : ls.all List.isEmpty = true := by
      rw [List.all_eq_true]
      intro l hl
      have : l.length ≤ (ls.map List.length).sum := by
        clear h
        induction ls with
        | nil => exact absurd hl List.not_mem_nil
        | cons b t ih =>
          simp only [List.map_cons, List.sum_cons]
          rcases List.mem_cons.mp hl with rfl | hl
          · omega
          · have := ih hl; omega
      have : l.length = 0 := by omega
      simpa using this
    rw [merge_empty he, merge_empty he]
  | n + 1, k, ls, h => by
    rw [show n + 1 + k = (n + k) + 1 by omega, merge_succ, merge_succ]
    split
    · rfl
    · cases hp : pick ls with
      | none => rfl
      | some x =>
        have := drop_sum (pick_mem hp).1
        simp only
        rw [merge_fuel n k _ (by omega)]

/-! ### Lookups -/

theorem look_some {ns mro m v} (h : look ns mro m = some v) :
    ∃ i, owner ns mro m = some i ∧ i ∈ mro ∧ (ns i).lookup m = some v := by
  unfold look at h
  cases ho : owner ns mro m with
  | none => simp [ho] at h
  | some i =>
    simp only [ho, Option.bind_some] at h
    exact ⟨i, rfl, List.mem_of_find?_eq_some ho, h⟩

theorem look_of_owner {ns mro m i} (h : owner ns mro m = some i) : look ns mro m = (ns i).lookup m := by
  simp [look, h]

/-- Something is found if a class of the order has the attribute. -/
theorem look_mem {ns mro m i v} (hi : i ∈ mro) (hv : (ns i).lookup m = some v) : ∃ v', look ns mro m = some v' := by
  cases ho : owner ns mro m with
  | none =>
    have := List.find?_eq_none.mp ho i hi
    simp [hv] at this
  | some j =>
    have := List.find?_some ho
    rw [look_of_owner ho]
    exact Option.isSome_iff_exists.mp this

theorem owner_cons (ns a t m) : owner ns (a :: t) m =
    if ((ns a).lookup m).isSome = true then some a else owner ns t m := by
  unfold owner
  rw [List.find?_cons]
  cases ((ns a).lookup m).isSome <;> rfl

/-- The first class found in an order is the first found in every order contained in it, if it is there. -/
theorem owner_sub {ns m i} : ∀ {l r : List Nat}, List.Sublist l r → r.Nodup → owner ns r m = some i → i ∈ l →
    owner ns l m = some i
  | _, _, .slnil, _, h, _ => h
  | l, _, .cons (l₂ := r) a hs, hn, h, hi => by
    have hn' := List.nodup_cons.mp hn
    have hai : a ≠ i := fun e => hn'.1 (e ▸ hs.subset hi)
    rw [owner_cons] at h
    split at h
    · simp only [Option.some.injEq] at h; exact absurd h hai
    · exact owner_sub hs hn'.2 h hi
  | _, _, .cons_cons (l₁ := l) (l₂ := r) a hs, hn, h, hi => by
    have hn' := List.nodup_cons.mp hn
    rw [owner_cons] at h ⊢
    by_cases hp : ((ns a).lookup m).isSome = true
    · rw [if_pos hp] at h ⊢; exact h
    · rw [if_neg hp] at h ⊢
      have hri : i ∈ r := List.mem_of_find?_eq_some h
      have hai : a ≠ i := fun e => hn'.1 (e ▸ hri)
      rcases List.mem_cons.mp hi with e | hi'
      · exact absurd e.symm hai
      · exact owner_sub hs hn'.2 h hi'

theorem look_congr {ns ns' : Nat → Body} {mro m} (h : ∀ i ∈ mro, ns i = ns' i) : look ns mro m = look ns' mro m := by
  have ho : owner ns mro m = owner ns' mro m := by
    unfold owner
    induction mro with
    | nil => rfl
    | cons a t ih =>
      rw [List.find?_cons, List.find?_cons, h a (by simp), ih (fun i hi => h i (by simp [hi]))]
  unfold look
  rw [← ho]
  cases hh : owner ns mro m with
  | none => rfl
  | some i => simp [h i (List.mem_of_find?_eq_some hh)]

/-! ### Names in a body -/

theorem mem_keys {b : Body} {m v} (h : b.lookup m = some v) : m ∈ b.map Prod.fst := by
  induction b with
  | nil => simp at h
  | cons x t ih =>
    obtain ⟨k, w⟩ := x
    rw [List.lookup_cons] at h
    split at h
    · rename_i he
      simp [beq_iff_eq.mp he]
    · simp [ih h]

theorem mem_ownStatics {b : Body} {m} : m ∈ ownStatics b ↔ ∃ k, b.lookup m = some (.static k) := by
  unfold ownStatics
  rw [List.mem_filter]
  constructor
  · rintro ⟨-, h⟩
    split at h
    · rename_i k hk; exact ⟨k, hk⟩
    · simp at h
  · rintro ⟨k, hk⟩
    exact ⟨mem_keys hk, by rw [hk]⟩

theorem mem_ownAbstracts {b : Body} {m} : m ∈ ownAbstracts b ↔ b.lookup m = some .absMethod := by
  unfold ownAbstracts
  rw [List.mem_filter]
  constructor
  · rintro ⟨-, h⟩; simpa using h
  · intro h; exact ⟨mem_keys h, by simpa using h⟩

/-! ### Members of bases -/

/-- A value that is neither abstract nor `NotImplemented`. -/
def Val.settled : Val → Bool
  | .static _ => false
  | .notImpl => false
  | _ => true

/-- What the loop over the members of one base does. -/
def MemberSpec (get : String → Option Val) (check : String → Check)
    (ms missing valid missing' valid' : List String) : Prop :=
    (∀ m ∈ missing, m ∈ missing') ∧ (∀ m ∈ valid, m ∈ valid') ∧
    (∀ m ∈ valid', m ∈ valid ∨ (m ∈ ms ∧ ∃ v, get m = some v ∧ v.settled = true ∧ accepts (check m) v = true)) ∧
    (∀ m ∈ ms, m ∈ valid' ∨ m ∈ missing') ∧
    (∀ m ∈ missing', m ∈ missing ∨ (m ∈ ms ∧ (∀ v, get m = some v → v.settled = false)))

theorem checkMembers_spec {get check} : ∀ {ms missing valid missing' valid'},
    checkMembers get check ms missing valid = some (missing', valid') →
    MemberSpec get check ms missing valid missing' valid'
  | [], missing, valid, missing', valid', h => by
    simp only [checkMembers, Option.some.injEq, Prod.mk.injEq] at h
    obtain ⟨rfl, rfl⟩ := h
    exact ⟨fun _ h => h, fun _ h => h, fun _ h => Or.inl h, fun _ h => absurd h List.not_mem_nil, fun _ h => Or.inl h⟩
  | m :: ms, missing, valid, missing', valid', h => by
    rw [checkMembers] at h
    by_cases hv : m ∈ valid
    · rw [if_pos hv] at h
      obtain ⟨a, b, c, d, e⟩ := checkMembers_spec h
      refine ⟨a, b, ?_, ?_, ?_⟩
      · intro x hx
        rcases c x hx with h1 | ⟨h1, h2⟩
        · exact Or.inl h1
        · exact Or.inr ⟨List.mem_cons_of_mem _ h1, h2⟩
      · intro x hx
        rcases List.mem_cons.mp hx with rfl | hx
        · exact Or.inl (b _ hv)
        · exact d x hx
      · intro x hx
        rcases e x hx with h1 | ⟨h1, h2⟩
        · exact Or.inl h1
        · exact Or.inr ⟨List.mem_cons_of_mem _ h1, h2⟩
    · rw [if_neg hv] at h
      have miss : (∀ v, get m = some v → v.settled = false) →
          checkMembers get check ms (m :: missing) valid = some (missing', valid') →
          MemberSpec get check (m :: ms) missing valid missing' valid' := by
        intro hs h
        obtain ⟨a, b, c, d, e⟩ := checkMembers_spec h
        refine ⟨fun x hx => a x (List.mem_cons_of_mem _ hx), b, ?_, ?_, ?_⟩
        · intro x hx
          rcases c x hx with h1 | ⟨h1, h2⟩
          · exact Or.inl h1
          · exact Or.inr ⟨List.mem_cons_of_mem _ h1, h2⟩
        · intro x hx
          rcases List.mem_cons.mp hx with rfl | hx
          · exact Or.inr (a _ (by simp))
          · exact d x hx
        · intro x hx
          rcases e x hx with h1 | ⟨h1, h2⟩
          · rcases List.mem_cons.mp h1 with rfl | h1
            · exact Or.inr ⟨by simp, hs⟩
            · exact Or.inl h1
          · exact Or.inr ⟨List.mem_cons_of_mem _ h1, h2⟩
      have good : ∀ v, get m = some v → v.settled = true →
          (if accepts (check m) v then checkMembers get check ms missing (m :: valid) else none)
            = some (missing', valid') →
          MemberSpec get check (m :: ms) missing valid missing' valid' := by
        intro v hg hs h
        by_cases ha : accepts (check m) v = true
        · rw [if_pos ha] at h
          obtain ⟨a, b, c, d, e⟩ := checkMembers_spec h
          refine ⟨a, fun x hx => b x (List.mem_cons_of_mem _ hx), ?_, ?_, ?_⟩
          · intro x hx
            rcases c x hx with h1 | ⟨h1, h2⟩
            · rcases List.mem_cons.mp h1 with rfl | h1
              · exact Or.inr ⟨by simp, v, hg, hs, ha⟩
              · exact Or.inl h1
            · exact Or.inr ⟨List.mem_cons_of_mem _ h1, h2⟩
          · intro x hx
            rcases List.mem_cons.mp hx with rfl | hx
            · exact Or.inl (b _ (by simp))
            · exact d x hx
          · intro x hx
            rcases e x hx with h1 | ⟨h1, h2⟩
            · exact Or.inl h1
            · exact Or.inr ⟨List.mem_cons_of_mem _ h1, h2⟩
        · rw [if_neg ha] at h; cases h
      cases hg : get m with
      | none => rw [hg] at h; exact miss (by simp [hg]) h
      | some v =>
        rw [hg] at h
        cases v with
        | static k => exact miss (by rw [hg]; rintro _ ⟨⟩; rfl) h
        | notImpl => exact miss (by rw [hg]; rintro _ ⟨⟩; rfl) h
        | absMethod => exact good _ hg rfl h
        | one i => exact good _ hg rfl h
        | many is => exact good _ hg rfl h
        | nothing => exact good _ hg rfl h

end Verif.Abc
