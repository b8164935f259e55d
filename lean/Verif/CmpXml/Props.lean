import Verif.CmpXml.Model

/-!
# XML comparison is an equivalence (C49)
-/
namespace Verif.CmpXml

/-! ### Specification -/

/-- Spaces, tabs and line breaks. -/
def white (c : Char) : Bool := decide (c ∈ " \t\n".toList)

/-- White space that counts as a space: a space, or two or more white space characters. -/
def Loose (l : Text) : Prop := l = [' '] ∨ 2 ≤ l.length

/-- Two texts are the same: the same characters, where a whole run of white space that counts as a space can
be replaced by another one. -/
inductive SameText : Text → Text → Prop where
  | nil : SameText [] []
  | char {c a b} (h : white c = false) (tail : SameText a b) : SameText (c :: a) (c :: b)
  | run {l m a b} (hl : l.all white = true) (hm : m.all white = true) (hl' : l ≠ []) (hm' : m ≠ [])
      (ends : ∀ c ∈ a.head?, white c = false) (ends' : ∀ c ∈ b.head?, white c = false)
      (same : l = m ∨ Loose l ∧ Loose m) (tail : SameText a b) : SameText (l ++ a) (m ++ b)

mutual
/-- Two elements are the same: tag, text up to the length of runs of white space, attributes as
a set, and the element children one by one. -/
inductive Same : Dom → Dom → Prop where
  | mk {t a k a' k'} (text : SameText (childText k) (childText k'))
      (attrs : ∀ n, a.lookup n = a'.lookup n) (kids : SameL (kidsOf k) (kidsOf k')) :
      Same (.elem t a k) (.elem t a' k')
inductive SameL : List Dom → List Dom → Prop where
  | nil : SameL [] []
  | cons {x y l m} (head : Same x y) (tail : SameL l m) : SameL (x :: l) (y :: m)
end

/-! ### The comparison decides it -/

theorem white_blank (c : Char) : blank c = white c := by
  simp [blank, white, Bool.or_assoc]

theorem norm_cons (r : Run) (c : Char) (cs : Text) : norm r (c :: cs) = if white c then norm (r.add c) cs else r.close ++ c :: norm .none cs := by
  rw [norm, white_blank]

theorem norm_blanks : ∀ (l a : Text) (r : Run), l.all white = true → (∀ c ∈ a.head?, white c = false) →
    norm r (l ++ a) = (l.foldl Run.add r).close ++ norm .none a
  | [], [], r, _, _ => by simp [norm, Run.close]
  | [], c :: a, r, _, ha => by
    have : white c = false := ha c (by simp)
    simp [norm, white_blank, this, Run.close]
  | c :: l, a, r, hl, ha => by
    rw [List.all_cons, Bool.and_eq_true] at hl
    rw [List.cons_append, norm_cons, if_pos hl.1, norm_blanks l a _ hl.2 ha, List.foldl_cons]

theorem foldl_many : ∀ l : Text, l.foldl Run.add .many = .many
  | [] => rfl
  | _ :: l => foldl_many l

theorem close_eq (l : Text) : (l.foldl Run.add .none).close = match l with | [] => [] | [c] => [c] | _ => [' '] := by
  match l with
  | [] => rfl
  | [c] => rfl
  | c :: d :: l =>
    rw [List.foldl_cons, List.foldl_cons]
    show (l.foldl Run.add .many).close = _
    rw [foldl_many]; rfl

theorem close_loose {l : Text} (h : Loose l) : (l.foldl Run.add .none).close = [' '] := by
  rw [close_eq]
  match l, h with
  | [], h => simp [Loose] at h
  | [c], h => simp [Loose] at h; simp [h]
  | _ :: _ :: _, _ => rfl

theorem close_blank {l : Text} (h : l.all white = true) : (l.foldl Run.add .none).close.all white = true := by
  rw [close_eq]
  match l, h with
  | [], _ => rfl
  | [c], h => exact h
  | _ :: _ :: _, _ => rfl

theorem close_inj {l m : Text} (h : (l.foldl Run.add .none).close = (m.foldl Run.add .none).close) :
    l = m ∨ Loose l ∧ Loose m := by
  rw [close_eq, close_eq] at h
  match l, m, h with
  | [], [], _ => exact .inl rfl
  | [], [_], h => simp at h
  | [], _ :: _ :: _, h => simp at h
  | [_], [], h => simp at h
  | [c], [d], h => exact .inl h
  | [c], _ :: _ :: _, h => exact .inr ⟨.inl h, .inr (by simp)⟩
  | _ :: _ :: _, [], h => simp at h
  | _ :: _ :: _, [d], h => exact .inr ⟨.inr (by simp), .inl h.symm⟩
  | _ :: _ :: _, _ :: _ :: _, _ => exact .inr ⟨.inr (by simp), .inr (by simp)⟩

theorem norm_of_same {a b : Text} (h : SameText a b) : norm .none a = norm .none b := by
  induction h with
  | nil => rfl
  | char h _ ih => simp [norm, white_blank, h, ih]
  | run hl hm _ _ ea eb hs _ ih =>
    rw [norm_blanks _ _ _ hl ea, norm_blanks _ _ _ hm eb, ih]
    rcases hs with hs | hs
    · rw [hs]
    · rw [close_loose hs.1, close_loose hs.2]

theorem blank_prefix : ∀ {p q a b : Text}, p.all white = true → q.all white = true → (∀ c ∈ a.head?, white c = false) →
    (∀ c ∈ b.head?, white c = false) → p ++ a = q ++ b → p = q ∧ a = b
  | [], [], _, _, _, _, _, _, h => ⟨rfl, h⟩
  | [], d :: q, a, b, _, hq, ha, _, h => by
    exfalso
    rw [List.all_cons, Bool.and_eq_true] at hq
    have h' : a = d :: (q ++ b) := h
    have := ha d (by rw [h']; rfl)
    rw [hq.1] at this; cases this
  | c :: p, [], a, b, hp, _, _, hb, h => by
    exfalso
    rw [List.all_cons, Bool.and_eq_true] at hp
    have h' : c :: (p ++ a) = b := h
    have := hb c (by rw [← h']; rfl)
    rw [hp.1] at this; cases this
  | c :: p, d :: q, a, b, hp, hq, ha, hb, h => by
    rw [List.all_cons, Bool.and_eq_true] at hp hq
    simp only [List.cons_append, List.cons.injEq] at h
    obtain ⟨h1, h2⟩ := blank_prefix hp.2 hq.2 ha hb h.2
    exact ⟨by rw [h.1, h1], h2⟩

theorem norm_head {a : Text} (ha : ∀ c ∈ a.head?, white c = false) : ∀ c ∈ (norm .none a).head?, white c = false := by
  cases a with
  | nil => simp [norm, Run.close]
  | cons c a =>
    have : white c = false := ha c (by simp)
    simp [norm, white_blank, this, Run.close]

theorem take_drop (a : Text) : a.takeWhile white ++ a.dropWhile white = a ∧ (a.takeWhile white).all white = true ∧
    ∀ c ∈ (a.dropWhile white).head?, white c = false := by
  refine ⟨List.takeWhile_append_dropWhile, by simp, ?_⟩
  intro c hc
  cases h : a.dropWhile white with
  | nil => rw [h] at hc; cases hc
  | cons d l =>
    have := List.head?_dropWhile_not white a
    rw [h] at this hc
    simp only [List.head?_cons, Option.mem_def, Option.some.injEq] at hc this
    rw [← hc]
    simpa using this

theorem same_of_norm : ∀ (n : Nat) (a b : Text), a.length ≤ n → norm .none a = norm .none b → SameText a b
  | n, a, b, hn, h => by
    obtain ⟨ea, ba, ha⟩ := take_drop a
    obtain ⟨eb, bb, hb⟩ := take_drop b
    generalize a.takeWhile white = l at ea ba
    generalize b.takeWhile white = m at eb bb
    generalize a.dropWhile white = x at ea ha
    generalize b.dropWhile white = y at eb hb
    rw [← ea, ← eb] at h ⊢
    rw [← ea] at hn
    rw [norm_blanks _ _ _ ba ha, norm_blanks _ _ _ bb hb] at h
    obtain ⟨h1, h2⟩ := blank_prefix (close_blank ba) (close_blank bb) (norm_head ha) (norm_head hb) h
    have hs := close_inj h1
    have tail : SameText x y := by
      cases x with
      | nil =>
        cases y with
        | nil => exact .nil
        | cons d y =>
          have hd : white d = false := hb d (by simp)
          simp [norm, white_blank, hd, Run.close] at h2
      | cons c x =>
        have hc : white c = false := ha c (by simp)
        cases y with
        | nil => simp [norm, white_blank, hc, Run.close] at h2
        | cons d y =>
          have hd : white d = false := hb d (by simp)
          simp only [norm, white_blank, hc, hd, Run.close, Bool.false_eq_true, if_false, List.nil_append, List.cons.injEq] at h2
          rw [← h2.1]
          refine .char hc ?_
          match n with
          | 0 => simp at hn
          | n + 1 => exact same_of_norm n x y (by simp at hn; omega) h2.2
    by_cases hl : l = []
    · rw [hl] at hs ⊢
      have hm : m = [] := by
        rcases hs with hs | hs
        · exact hs.symm
        · simp [Loose] at hs
      rw [hm]; exact tail
    · have hm : m ≠ [] := by
        intro hm
        rcases hs with hs | hs
        · rw [hm] at hs; exact hl hs
        · rw [hm] at hs; simp [Loose] at hs
      exact .run ba bb hl hm ha hb hs tail

theorem sameText_iff (a b : Text) : norm .none a = norm .none b ↔ SameText a b := ⟨same_of_norm _ a b (Nat.le_refl _), norm_of_same⟩

theorem attrsEq_iff (a b : List (Text × Text)) : attrsEq a b = true ↔ ∀ n, a.lookup n = b.lookup n := by
  unfold attrsEq
  rw [List.all_eq_true]
  constructor
  · intro h n
    cases ha : a.lookup n with
    | some v =>
      have hm : ∃ p ∈ a, p.1 = n := by
        clear h
        induction a with
        | nil => cases ha
        | cons p l ih =>
          obtain ⟨x, y⟩ := p
          rw [List.lookup_cons] at ha
          cases hx : n == x with
          | true => exact ⟨(x, y), List.mem_cons_self, (beq_iff_eq.mp hx).symm⟩
          | false =>
            rw [hx] at ha
            obtain ⟨p, hp, e⟩ := ih ha
            exact ⟨p, List.mem_cons_of_mem _ hp, e⟩
      obtain ⟨p, hp, rfl⟩ := hm
      have := h p (List.mem_append_left _ hp)
      rw [decide_eq_true_eq, ha] at this
      exact this
    | none =>
      cases hb : b.lookup n with
      | none => rfl
      | some v =>
        have hm : ∃ p ∈ b, p.1 = n := by
          clear h
          induction b with
          | nil => cases hb
          | cons p l ih =>
            obtain ⟨x, y⟩ := p
            rw [List.lookup_cons] at hb
            cases hx : n == x with
            | true => exact ⟨(x, y), List.mem_cons_self, (beq_iff_eq.mp hx).symm⟩
            | false =>
              rw [hx] at hb
              obtain ⟨p, hp, e⟩ := ih hb
              exact ⟨p, List.mem_cons_of_mem _ hp, e⟩
        obtain ⟨p, hp, rfl⟩ := hm
        have := h p (List.mem_append_right _ hp)
        rw [decide_eq_true_eq, ha, hb] at this
        exact this
  · intro h p _
    simp [h]

theorem kidsOf_kidsOf (l : List Dom) : kidsOf (kidsOf l) = kidsOf l := by simp [kidsOf]

theorem kidsOf_tail {l : List Dom} {d : Dom} {ds : List Dom} (h : kidsOf l = d :: ds) : kidsOf ds = ds := by
  have := kidsOf_kidsOf l
  rw [h] at this
  have hd : d.isElem = true := by
    have : d ∈ kidsOf l := by rw [h]; simp
    exact (List.mem_filter.mp this).2
  simp only [kidsOf, List.filter_cons, hd, if_true, List.cons.injEq, true_and] at this
  exact this

/-- `checkL` is what the code does: as many children on both sides and every pair of them the same. -/
theorem checkL_eq : ∀ (k l : List Dom), checkL k l =
    (decide ((kidsOf k).length = (kidsOf l).length) && ((kidsOf k).zip (kidsOf l)).all (fun p => check p.1 p.2))
  | [], l => by
    have e : kidsOf [] = [] := rfl
    rw [checkL, e, Bool.eq_iff_iff, Bool.and_eq_true, List.isEmpty_iff, decide_eq_true_eq, List.length_nil,
      eq_comm (a := 0), List.length_eq_zero_iff]
    simp
  | k :: ks, l => by
    rw [checkL]
    by_cases hk : k.isElem = true
    · rw [if_pos hk]
      have e : kidsOf (k :: ks) = k :: kidsOf ks := by simp [kidsOf, hk]
      rw [e]
      cases hl : kidsOf l with
      | nil => simp
      | cons d ds =>
        simp only
        rw [checkL_eq ks ds, kidsOf_tail hl]
        simp only [List.length_cons, List.zip_cons_cons, List.all_cons, Nat.add_right_cancel_iff]
        cases check k d <;> simp
    · rw [if_neg hk, checkL_eq ks l]
      have e : kidsOf (k :: ks) = kidsOf ks := by simp [kidsOf, hk]
      rw [e]

theorem sameL_nil_iff (l : List Dom) : SameL [] l ↔ l = [] := by
  constructor
  · intro h; cases h; rfl
  · rintro rfl; exact .nil

mutual
theorem check_iff : ∀ (x y : Dom), x.isElem = true → (check x y = true ↔ Same x y)
  | .elem t a k, y, _ => by
    cases y with
    | elem t' a' k' =>
      simp only [check, Bool.and_eq_true, decide_eq_true_eq, attrsEq_iff, checkL_iff k k', sameText_iff]
      constructor
      · rintro ⟨⟨⟨rfl, h1⟩, h2⟩, h3⟩; exact .mk h1 h2 h3
      · intro h; cases h with
        | mk h1 h2 h3 => exact ⟨⟨⟨rfl, h1⟩, h2⟩, h3⟩
    | text d => simp only [check]; constructor <;> intro h <;> cases h
    | comment => simp only [check]; constructor <;> intro h <;> cases h
    | other d => simp only [check]; constructor <;> intro h <;> cases h
  | .text _, _, h => by cases h
  | .comment, _, h => by cases h
  | .other _, _, h => by cases h
theorem checkL_iff : ∀ (k l : List Dom), checkL k l = true ↔ SameL (kidsOf k) (kidsOf l)
  | [], l => by
    simp only [checkL, kidsOf, List.filter_nil, sameL_nil_iff, List.isEmpty_iff]
  | k :: ks, l => by
    rw [checkL]
    by_cases hk : k.isElem = true
    · rw [if_pos hk]
      have e : kidsOf (k :: ks) = k :: kidsOf ks := by simp [kidsOf, hk]
      rw [e]
      cases hl : kidsOf l with
      | nil => simp only [Bool.false_eq_true, false_iff]; intro h; cases h
      | cons d ds =>
        simp only [Bool.and_eq_true]
        rw [check_iff k d hk, checkL_iff ks ds, kidsOf_tail hl]
        constructor
        · rintro ⟨h1, h2⟩; exact .cons h1 h2
        · intro h; cases h with
          | cons h1 h2 => exact ⟨h1, h2⟩
    · rw [if_neg hk, checkL_iff ks l]
      have e : kidsOf (k :: ks) = kidsOf ks := by simp [kidsOf, hk]
      rw [e]
end

/-! ### Equivalence -/

mutual
theorem same_refl : ∀ (x : Dom), x.isElem = true → Same x x
  | .elem t a k, _ => .mk (same_of_norm _ _ _ (Nat.le_refl _) rfl) (fun _ => rfl) (sameL_refl k)
  | .text _, h => by cases h
  | .comment, h => by cases h
  | .other _, h => by cases h
theorem sameL_refl : ∀ (l : List Dom), SameL (kidsOf l) (kidsOf l)
  | [] => .nil
  | k :: ks => by
    by_cases hk : k.isElem = true
    · have e : kidsOf (k :: ks) = k :: kidsOf ks := by simp [kidsOf, hk]
      rw [e]; exact .cons (same_refl k hk) (sameL_refl ks)
    · have e : kidsOf (k :: ks) = kidsOf ks := by simp [kidsOf, hk]
      rw [e]; exact sameL_refl ks
end

theorem same_symm {x y : Dom} (h : Same x y) : Same y x := by
  refine Same.rec (motive_1 := fun x y _ => Same y x) (motive_2 := fun l m _ => SameL m l) ?_ ?_ ?_ h
  · intro t a k a' k' h1 h2 _ ih; exact .mk ((sameText_iff _ _).mp (norm_of_same h1).symm) (fun n => (h2 n).symm) ih
  · exact .nil
  · intro x y l m _ _ i1 i2; exact .cons i1 i2

theorem same_trans {x y z : Dom} (h : Same x y) : Same y z → Same x z := by
  refine Same.rec (motive_1 := fun x y _ => ∀ z, Same y z → Same x z)
    (motive_2 := fun l m _ => ∀ n, SameL m n → SameL l n) ?_ ?_ ?_ h z
  · intro t a k a' k' h1 h2 _ ih z hz
    cases hz with
    | mk g1 g2 g3 => exact .mk ((sameText_iff _ _).mp ((norm_of_same h1).trans (norm_of_same g1))) (fun n => (h2 n).trans (g2 n)) (ih _ g3)
  · intro n hn; exact hn
  · intro x y l m _ _ i1 i2 n hn
    cases hn with
    | cons g1 g2 => exact .cons (i1 _ g1) (i2 _ g2)

theorem Same.isElem {x y : Dom} (h : Same x y) : x.isElem = true ∧ y.isElem = true := by
  cases h; exact ⟨rfl, rfl⟩

/-- **C49, elements.** The comparison of elements answers true exactly for the same elements, and being
the same is reflexive, symmetric and transitive. -/
theorem C49_elements :
    (∀ x y : Dom, x.isElem = true → (check x y = true ↔ Same x y)) ∧
    (∀ x : Dom, x.isElem = true → Same x x) ∧
    (∀ x y, Same x y → Same y x) ∧ (∀ x y z, Same x y → Same y z → Same x z) :=
  ⟨check_iff, same_refl, fun _ _ => same_symm, fun _ _ _ => same_trans⟩

theorem check_symm {x y : Dom} (hx : x.isElem = true) (hy : y.isElem = true) : check x y = check y x := by
  rw [Bool.eq_iff_iff, check_iff x y hx, check_iff y x hy]
  exact ⟨same_symm, same_symm⟩

/-- What makes a difference: the tag, an attribute, the text up to white space, the number of element
children or any one of them. -/
theorem C49_distinguishes (t t' : Text) (a a' : List (Text × Text)) (k k' : List Dom)
    (h : t ≠ t' ∨ (∃ n, a.lookup n ≠ a'.lookup n) ∨ ¬ SameText (childText k) (childText k') ∨
      (kidsOf k).length ≠ (kidsOf k').length ∨
      (∃ (i : Nat) (x y : Dom), (kidsOf k)[i]? = some x ∧ (kidsOf k')[i]? = some y ∧ check x y = false)) :
    check (.elem t a k) (.elem t' a' k') = false := by
  rw [← Bool.not_eq_true]
  intro hc
  rw [check_iff _ _ rfl] at hc
  cases hc with
  | mk h1 h2 h3 =>
    rcases h with h | ⟨n, h⟩ | h | h | ⟨i, x, y, hx, hy, h⟩
    · exact h rfl
    · exact h (h2 n)
    · exact h h1
    · refine h ?_
      refine SameL.rec (motive_1 := fun _ _ _ => True) (motive_2 := fun l m _ => l.length = m.length) ?_ ?_ ?_ h3
      · intros; trivial
      · rfl
      · intro _ _ _ _ _ _ _ ih; simp [ih]
    · have hall : ∀ {l m : List Dom}, SameL l m → ∀ (i : Nat) (x y : Dom), l[i]? = some x → m[i]? = some y → Same x y := by
        intro l m hs
        refine SameL.rec (motive_1 := fun _ _ _ => True)
          (motive_2 := fun l m _ => ∀ (i : Nat) (x y : Dom), l[i]? = some x → m[i]? = some y → Same x y) ?_ ?_ ?_ hs
        · intros; trivial
        · intro i x y hx; cases hx
        · intro a b l m hab _ _ ih i x y hx hy
          cases i with
          | zero => simp at hx hy; subst hx; subst hy; exact hab
          | succ i => exact ih i x y (by simpa using hx) (by simpa using hy)
      have hs := hall h3 i x y hx hy
      have := (check_iff x y hs.isElem.1).mpr hs
      rw [h] at this; cases this

/-- The order of attributes, comments and other nodes that are not text or elements, and the length of
runs of white space do not matter. -/
theorem C49_attribute_order (t : Text) (a a' : List (Text × Text)) (k : List Dom) (hp : a.Perm a')
    (hn : (a.map (·.1)).Nodup) : check (.elem t a k) (.elem t a' k) = true := by
  rw [check_iff _ _ rfl]
  refine .mk (same_of_norm _ _ _ (Nat.le_refl _) rfl) ?_ (sameL_refl k)
  intro n
  have mem : ∀ (l : List (Text × Text)), (l.map (·.1)).Nodup → ∀ v, l.lookup n = some v ↔ (n, v) ∈ l := by
    intro l
    induction l with
    | nil => intro _ v; simp
    | cons p l ih =>
      obtain ⟨x, y⟩ := p
      intro hn v
      rw [List.map_cons, List.nodup_cons] at hn
      rw [List.lookup_cons]
      cases hx : n == x with
      | true =>
        have := beq_iff_eq.mp hx
        subst this
        simp only [Option.some.injEq, List.mem_cons, Prod.mk.injEq, true_and]
        constructor
        · intro h; exact .inl h.symm
        · rintro (h | h)
          · exact h.symm
          · exact absurd (List.mem_map_of_mem (f := (·.1)) h) hn.1
      | false =>
        have hne : n ≠ x := by intro e; subst e; simp at hx
        simp only [ih hn.2 v, List.mem_cons, Prod.mk.injEq, hne, false_and, false_or]
  have hn' : (a'.map (·.1)).Nodup := (hp.map (·.1)).nodup_iff.mp hn
  cases h1 : a.lookup n with
  | some v => exact ((mem a' hn' v).mpr (hp.mem_iff.mp ((mem a hn v).mp h1))).symm
  | none =>
    cases h2 : a'.lookup n with
    | none => rfl
    | some v =>
      have := (mem a hn v).mpr (hp.mem_iff.mpr ((mem a' hn' v).mp h2))
      rw [h1] at this; cases this

theorem C49_comments (t : Text) (a : List (Text × Text)) (k1 k2 : List Dom) (x : Dom) (h : x = .comment ∨ ∃ d, x = .other d) :
    check (.elem t a (k1 ++ x :: k2)) (.elem t a (k1 ++ k2)) = true := by
  rw [check_iff _ _ rfl]
  have hk : kidsOf (k1 ++ x :: k2) = kidsOf (k1 ++ k2) := by
    rcases h with rfl | ⟨d, rfl⟩ <;> simp [kidsOf, Dom.isElem]
  have ht : ∀ k1 : List Dom, childText (k1 ++ x :: k2) = childText (k1 ++ k2) := by
    intro k1
    induction k1 with
    | nil => rcases h with rfl | ⟨d, rfl⟩ <;> simp [childText]
    | cons y ys ih => cases y <;> simp [childText, ih]
  refine .mk (by rw [ht]; exact same_of_norm _ _ _ (Nat.le_refl _) rfl) (fun _ => rfl) ?_
  rw [hk]
  exact sameL_refl _

theorem norm_run (b : Text) : ∀ (r : Run) (l : Text), l.all white = true → (2 ≤ l.length ∨ r = .many) →
    norm r (l ++ b) = norm .many b
  | r, [], _, h => by
    rcases h with h | h
    · simp at h
    · rw [h]; rfl
  | r, [c], hl, h => by
    have hc : white c = true := by simpa using hl
    rcases h with h | h
    · simp at h
    · rw [h]; simp [norm, white_blank, hc, Run.add]
  | r, c :: d :: l, hl, _ => by
    have hc : white c = true := by simp at hl; exact hl.1
    have hd : white d = true := by simp at hl; exact hl.2.1
    rw [List.cons_append, List.cons_append, norm_cons, if_pos hc, norm_cons, if_pos hd]
    have : (r.add c).add d = .many := by cases r <;> rfl
    rw [this]
    refine norm_run b .many l ?_ (.inr rfl)
    rw [List.all_cons, List.all_cons] at hl
    simp only [Bool.and_eq_true] at hl; exact hl.2.2

/-- Two texts that differ only in how long and of what kind a run of at least two white space
characters is count as the same text. -/
theorem C49_white_space (t : Text) (as : List (Text × Text)) (a b l m : Text) (hl : l.all white = true) (hm : m.all white = true)
    (h1 : 2 ≤ l.length) (h2 : 2 ≤ m.length) :
    check (.elem t as [.text (a ++ l ++ b)]) (.elem t as [.text (a ++ m ++ b)]) = true := by
  have : ∀ (a : Text) (r : Run), norm r (a ++ l ++ b) = norm r (a ++ m ++ b) := by
    intro a
    induction a with
    | nil => intro r; rw [List.nil_append, List.nil_append, norm_run b r l hl (.inl h1), norm_run b r m hm (.inl h2)]
    | cons c cs ih =>
      intro r
      simp only [List.cons_append, norm]
      split
      · exact ih _
      · rw [ih]
  rw [check_iff _ _ rfl]
  refine .mk ((sameText_iff _ _).mp ?_) (fun _ => rfl) .nil
  simp only [childText, List.append_nil]
  exact this a .none

/-- A white space character alone counts as it is: a line break is not a space. -/
theorem C49_single_white_space (t : Text) (as : List (Text × Text)) (a b : Text) (c d : Char) (hc : white c = true)
    (hd : white d = true) (hcd : c ≠ d) (ha : ∀ x ∈ a.getLast?, white x = false) (hb : ∀ x ∈ b.head?, white x = false) :
    check (.elem t as [.text (a ++ c :: b)]) (.elem t as [.text (a ++ d :: b)]) = false := by
  rw [← Bool.not_eq_true]
  intro h
  rw [check_iff _ _ rfl] at h
  cases h with
  | mk h1 h2 h3 =>
    simp only [childText, List.append_nil] at h1
    have h1 := norm_of_same h1
    have h4 : norm .none (c :: b) = norm .none (d :: b) := by
      clear h2 h3
      have key : ∀ (n : Nat) (a : Text), a.length ≤ n → (∀ x ∈ a.getLast?, white x = false) →
          norm .none (a ++ c :: b) = norm .none (a ++ d :: b) → norm .none (c :: b) = norm .none (d :: b) := by
        intro n
        induction n with
        | zero =>
          intro a hn _ h
          have : a = [] := List.length_eq_zero_iff.mp (by omega)
          rw [this] at h; exact h
        | succ n ih =>
          intro a hn hl h
          obtain ⟨e, bl, hx⟩ := take_drop a
          generalize a.takeWhile white = l at e bl
          generalize a.dropWhile white = x at e hx
          cases x with
          | nil =>
            rw [List.append_nil] at e
            rw [← e] at h hl
            cases hlast : l.getLast? with
            | none =>
              rw [List.getLast?_eq_none_iff] at hlast
              rw [hlast] at h; exact h
            | some z =>
              exfalso
              have h1 := hl z hlast
              have h2 := List.all_eq_true.mp bl z (List.mem_of_getLast? hlast)
              rw [h1] at h2; cases h2
          | cons y x =>
            have hy : white y = false := hx y (by simp)
            rw [← e] at h hn hl
            simp only [List.append_assoc, List.cons_append] at h
            rw [norm_blanks l _ _ bl (by intro c hc; simp at hc; rw [← hc]; exact hy),
              norm_blanks l _ _ bl (by intro c hc; simp at hc; rw [← hc]; exact hy)] at h
            have h := List.append_cancel_left h
            simp only [norm, white_blank, hy, Bool.false_eq_true, if_false, Run.close, List.nil_append, List.cons.injEq, true_and] at h
            refine ih x (by simp at hn; omega) ?_ h
            intro z hz
            apply hl z
            cases x with
            | nil => cases hz
            | cons w x =>
              rw [List.getLast?_append, List.getLast?_cons_cons]
              rw [Option.mem_def] at hz
              rw [hz]; rfl
      exact key _ a (Nat.le_refl _) ha h1
    rw [show c :: b = [c] ++ b from rfl, show d :: b = [d] ++ b from rfl, norm_blanks [c] b _ (by simp [hc]) hb,
      norm_blanks [d] b _ (by simp [hd]) hb] at h4
    simp only [List.foldl_cons, List.foldl_nil, Run.add, Run.close, List.cons_append, List.nil_append, List.cons.injEq] at h4
    exact hcd h4.1

example : check (.elem ['p'] [] [.text "a b".toList]) (.elem ['p'] [] [.text "a\nb".toList]) = false ∧
    check (.elem ['p'] [] [.text "a b".toList]) (.elem ['p'] [] [.text "a\n b".toList]) = true := by decide +kernel

/-! ### Texts -/

/-- A text as it is compared: stripped, with `\n` escapes replaced, not in quotes. -/
def text1 (s : Text) : Text := unescape (Wrap.strip s)

/-- `s` is `r` in single or double quotes, behind `pre`. -/
def InQuotes (pre r s : Text) : Prop := ∃ q, (q = '"' ∨ q = '\'') ∧ s = pre ++ q :: (r ++ [q])

/-- A text that is not in quotes, neither as it is nor behind the `u` of a unicode string. -/
def Unquoted (s : Text) : Prop := (∀ r, ¬ InQuotes [] r (Wrap.strip s)) ∧ ∀ r, ¬ InQuotes ['u'] r (Wrap.strip s)

theorem ends_cons {c : Char} {l : Text} (h : (c :: l).head? = (c :: l).getLast?) (hl : l ≠ []) : ∃ r, l = r ++ [c] := by
  obtain ⟨r, d, rfl⟩ : ∃ r d, l = r ++ [d] := ⟨l.dropLast, l.getLast hl, (List.dropLast_concat_getLast hl).symm⟩
  refine ⟨r, ?_⟩
  rw [show c :: (r ++ [d]) = (c :: r) ++ [d] from rfl, List.getLast?_concat] at h
  cases h
  rfl

theorem quoted_iff (s : Text) : quoted s = true ↔ ∃ r, InQuotes [] r s := by
  simp only [quoted, Bool.and_eq_true, Bool.or_eq_true, decide_eq_true_eq]
  constructor
  · rintro ⟨⟨h1, h2⟩, h3⟩
    cases s with
    | nil => simp at h1
    | cons c l =>
      have hl : l ≠ [] := by rintro rfl; simp at h1
      obtain ⟨r, rfl⟩ := ends_cons h2 hl
      simp only [List.head?_cons, Option.some.injEq] at h3
      exact ⟨r, c, h3, rfl⟩
  · rintro ⟨r, q, hq, rfl⟩
    refine ⟨⟨by simp, ?_⟩, by simpa using hq⟩
    rw [List.nil_append, show q :: (r ++ [q]) = (q :: r) ++ [q] from rfl, List.getLast?_concat]
    rfl

theorem quotedU_iff (s : Text) : quotedU s = true ↔ ∃ r, InQuotes ['u'] r s := by
  simp only [quotedU, Bool.and_eq_true, Bool.or_eq_true, decide_eq_true_eq]
  constructor
  · rintro ⟨⟨⟨h1, h2⟩, h3⟩, h4⟩
    cases s with
    | nil => simp at h1
    | cons u s =>
      cases s with
      | nil => simp at h1
      | cons c l =>
        have hl : l ≠ [] := by rintro rfl; simp at h1
        rw [List.tail_cons, List.getLast?_cons_cons] at h3
        obtain ⟨r, rfl⟩ := ends_cons h3 hl
        simp only [List.head?_cons, Option.some.injEq, List.tail_cons] at h2 h4
        exact ⟨r, c, h4, by rw [h2]; rfl⟩
  · rintro ⟨r, q, hq, rfl⟩
    refine ⟨⟨⟨by simp, rfl⟩, ?_⟩, by simpa using hq⟩
    rw [show ['u'] ++ q :: (r ++ [q]) = ('u' :: q :: r) ++ [q] from rfl, List.getLast?_concat]
    rfl

theorem Unquoted.false {s : Text} (h : Unquoted s) : quoted (Wrap.strip s) = false ∧ quotedU (Wrap.strip s) = false := by
  constructor
  · rw [← Bool.not_eq_true, quoted_iff]; rintro ⟨r, hr⟩; exact h.1 r hr
  · rw [← Bool.not_eq_true, quotedU_iff]; rintro ⟨r, hr⟩; exact h.2 r hr

theorem unquoted_of {s : Text} (h : quoted (Wrap.strip s) = false ∧ quotedU (Wrap.strip s) = false) : Unquoted s := by
  constructor
  · intro r hr
    have := (quoted_iff _).2 ⟨r, hr⟩
    rw [h.1] at this; cases this
  · intro r hr
    have := (quotedU_iff _).2 ⟨r, hr⟩
    rw [h.2] at this; cases this

instance (s : Text) : Decidable (Unquoted s) := decidable_of_iff _ ⟨unquoted_of, Unquoted.false⟩

/-- **C49.** Two texts that are both in quotes, or both in the quotes of unicode strings, are compared by what is inside the
quotes. -/
theorem C49_quotes (parse : Text → Option (List Dom)) (pre a b r r' : Text) (hp : pre = [] ∨ pre = ['u'])
    (ha : InQuotes pre r (Wrap.strip a)) (hb : InQuotes pre r' (Wrap.strip b)) (hr : Unquoted r) :
    compareXml parse a b = compareXml parse r r' := by
  have hin : stripQuotes r r' = (r, r') := by simp [stripQuotes, hr.false.1, hr.false.2]
  have hout : stripQuotes a b = (r, r') := by
    rcases hp with rfl | rfl
    · have h1 := (quoted_iff _).2 ⟨r, ha⟩
      have h2 := (quoted_iff _).2 ⟨r', hb⟩
      obtain ⟨q, -, e⟩ := ha
      obtain ⟨q', -, e'⟩ := hb
      rw [e] at h1
      rw [e'] at h2
      simp [stripQuotes, e, e', List.nil_append] at h1 h2 ⊢
      simp [h1, h2]
    · have h1 := (quotedU_iff _).2 ⟨r, ha⟩
      have h2 := (quotedU_iff _).2 ⟨r', hb⟩
      have h3 : quoted (Wrap.strip a) = false := by
        obtain ⟨q, -, e⟩ := ha
        rw [← Bool.not_eq_true, quoted_iff, e]
        rintro ⟨x, c, hc, hx⟩
        simp only [List.cons_append, List.nil_append, List.cons.injEq] at hx
        rcases hc with rfl | rfl <;> exact absurd hx.1 (by decide)
      obtain ⟨q, -, e⟩ := ha
      obtain ⟨q', -, e'⟩ := hb
      rw [e] at h1 h3
      rw [e'] at h2
      simp [stripQuotes, e, e'] at h1 h2 h3 ⊢
      simp [h1, h2, h3]
  simp only [compareXml, hin, hout]

/-- The empty quotes are quotes; a lone quote is not. -/
example : quoted "\"\"".toList = true ∧ quoted "\"".toList = false ∧ quotedU "u''".toList = true ∧ Unquoted "u'".toList := by decide +kernel

/-- **C49, texts.** Whatever the parser does, on unquoted texts that all have an XML declaration or all
have none: comparing never tells a text from itself, gives the same answer (or exception) in both
directions, and is transitive. -/
theorem C49_texts (parse : Text → Option (List Dom)) (a b c : Text) (ha : Unquoted a) (hb : Unquoted b) (hc : Unquoted c)
    (hd : declared (text1 a) = declared (text1 b)) (hd' : declared (text1 b) = declared (text1 c)) :
    compareXml parse a a ≠ some false ∧
    compareXml parse a b = compareXml parse b a ∧
    (compareXml parse a b = some true → compareXml parse b c = some true → compareXml parse a c = some true) := by
  have form : ∀ x y, Unquoted x → Unquoted y → declared (text1 x) = declared (text1 y) →
      compareXml parse x y = checkRoots (rootOf parse (if declared (text1 x) then text1 x else wrap (text1 x)))
        (rootOf parse (if declared (text1 y) then text1 y else wrap (text1 y))) := by
    intro x y hx hy hxy
    have : stripQuotes x y = (x, y) := by simp [stripQuotes, hx.false.1, hx.false.2]
    unfold compareXml
    simp only [this]
    rw [show unescape (Wrap.strip x) = text1 x from rfl, show unescape (Wrap.strip y) = text1 y from rfl, hxy]
  have elem : ∀ s p, rootOf parse s = some p → p.isElem = true := by
    intro s p h
    unfold rootOf at h
    split at h
    · cases h
    · rename_i l _
      cases hf : firstNode l with
      | none => rw [hf] at h; cases h
      | some d =>
        rw [hf] at h
        simp only [Option.filter] at h
        split at h
        · rename_i hd; cases h; exact hd
        · cases h
  rw [form a a ha ha rfl, form a b ha hb hd, form b a hb ha hd.symm, form b c hb hc hd', form a c ha hc (hd.trans hd')]
  generalize hpa : rootOf parse (if declared (text1 a) then text1 a else wrap (text1 a)) = ra
  generalize hpb : rootOf parse (if declared (text1 b) then text1 b else wrap (text1 b)) = rb
  generalize hpc : rootOf parse (if declared (text1 c) then text1 c else wrap (text1 c)) = rc
  refine ⟨?_, ?_, ?_⟩
  · cases ra with
    | none => simp [checkRoots]
    | some p =>
      simp only [checkRoots, ne_eq, Option.some.injEq]
      have := (check_iff p p (elem _ _ hpa)).mpr (same_refl p (elem _ _ hpa))
      rw [this]; simp
  · cases ra with
    | none => cases rb <;> rfl
    | some p =>
      cases rb with
      | none => rfl
      | some q =>
        simp only [checkRoots, Option.some.injEq]
        exact check_symm (elem _ _ hpa) (elem _ _ hpb)
  · cases ra with
    | none => intro h; cases h
    | some p =>
      cases rb with
      | none => intro h; cases h
      | some q =>
        cases rc with
        | none => intro _ h; cases h
        | some r =>
          simp only [checkRoots, Option.some.injEq]
          intro h1 h2
          rw [check_iff _ _ (elem _ _ hpa)] at h1 ⊢
          rw [check_iff _ _ (elem _ _ hpb)] at h2
          exact same_trans h1 h2

/-- **C49, documents.** Of texts with an XML declaration the elements that follow the comments are compared. -/
theorem C49_documents (parse : Text → Option (List Dom)) (a b : Text) (ha : Unquoted a) (hd : "<?xml".toList <+: text1 a)
    (ca ra cb rb : List Dom) (x y : Dom) (hca : ∀ d ∈ ca, d = .comment) (hcb : ∀ d ∈ cb, d = .comment) (hx : x.isElem = true)
    (hy : y.isElem = true) (hpa : parse (text1 a) = some (ca ++ x :: ra)) (hpb : parse (text1 b) = some (cb ++ y :: rb)) :
    ∃ r, compareXml parse a b = some r ∧ (r = true ↔ Same x y) := by
  have hf : ∀ (c r : List Dom) (z : Dom), (∀ d ∈ c, d = .comment) → z.isElem = true → firstNode (c ++ z :: r) = some z := by
    intro c r z hc hz
    induction c with
    | nil => cases z <;> first | rfl | cases hz
    | cons d c ih =>
      rw [hc d List.mem_cons_self]
      exact ih (fun e he => hc e (List.mem_cons_of_mem _ he))
  refine ⟨check x y, ?_, check_iff x y hx⟩
  have hq : stripQuotes a b = (a, b) := by simp [stripQuotes, ha.false.1, ha.false.2]
  have hdec : declared (unescape (Wrap.strip a)) = true := List.isPrefixOf_iff_prefix.2 hd
  unfold compareXml
  simp only [hq, hdec, if_true]
  rw [show unescape (Wrap.strip a) = text1 a from rfl, show unescape (Wrap.strip b) = text1 b from rfl, rootOf, rootOf, hpa, hpb]
  simp only [hf ca ra x hca hx, hf cb rb y hcb hy, Option.filter, hx, hy, if_true, checkRoots]

/-- **C49, fragments.** Other texts are compared as the content of an element that is put around both. -/
theorem C49_fragments (parse : Text → Option (List Dom)) (a b : Text) (ha : Unquoted a) (hd : ¬ "<?xml".toList <+: text1 a)
    (t : Text) (as : List (Text × Text)) (ka kb ra rb : List Dom) (hpa : parse ("<root>".toList ++ text1 a ++ "</root>".toList) = some (.elem t as ka :: ra))
    (hpb : parse ("<root>".toList ++ text1 b ++ "</root>".toList) = some (.elem t as kb :: rb)) :
    ∃ r, compareXml parse a b = some r ∧
      (r = true ↔ SameText (childText ka) (childText kb) ∧ SameL (kidsOf ka) (kidsOf kb)) := by
  refine ⟨check (.elem t as ka) (.elem t as kb), ?_, ?_⟩
  · have hq : stripQuotes a b = (a, b) := by simp [stripQuotes, ha.false.1, ha.false.2]
    have hdec : declared (unescape (Wrap.strip a)) = false := by
      rw [← Bool.not_eq_true]
      exact fun h => hd (List.isPrefixOf_iff_prefix.1 h)
    unfold compareXml
    simp only [hq]
    rw [hdec, show unescape (Wrap.strip a) = text1 a from rfl, show unescape (Wrap.strip b) = text1 b from rfl,
      show (if false = true then text1 a else wrap (text1 a)) = wrap (text1 a) from rfl,
      show (if false = true then text1 b else wrap (text1 b)) = wrap (text1 b) from rfl, rootOf, rootOf, wrap, wrap, hpa, hpb]
    rfl
  · rw [check_iff _ _ rfl]
    constructor
    · intro h
      cases h with
      | mk h1 _ h3 => exact ⟨h1, h3⟩
    · exact fun h => .mk h.1 (fun _ => rfl) h.2

/-- A text with its line breaks written as `\n`. -/
def escaped : Text → Text
  | [] => []
  | c :: l => if c = '\n' then '\\' :: 'n' :: escaped l else c :: escaped l

theorem unescape_id : ∀ s : Text, '\\' ∉ s → unescape s = s
  | [], _ => rfl
  | [c], _ => rfl
  | c :: d :: l, h => by
    rw [unescape, if_neg (by intro hc; exact h (by rw [hc.1]; simp)), unescape_id (d :: l) (fun hm => h (List.mem_cons_of_mem _ hm))]

theorem unescape_escaped : ∀ s : Text, '\\' ∉ s → unescape (escaped s) = s
  | [], _ => rfl
  | c :: l, h => by
    have hl : '\\' ∉ l := fun hm => h (List.mem_cons_of_mem _ hm)
    have hc : c ≠ '\\' := by intro e; exact h (by rw [e]; simp)
    rw [escaped]
    by_cases hn : c = '\n'
    · rw [if_pos hn, unescape, if_pos ⟨rfl, rfl⟩, unescape_escaped l hl, hn]
    · rw [if_neg hn]
      have ih := unescape_escaped l hl
      cases he : escaped l with
      | nil => rw [he] at ih; rw [← ih]; rfl
      | cons d l' =>
        rw [unescape, if_neg (fun e => hc e.1), ← he, ih]

/-- **C49, line breaks.** It makes no difference to the comparison whether the line breaks of a text are written
as `\n`. -/
theorem C49_escaped_line_breaks (parse : Text → Option (List Dom)) (s b : Text) (hb : '\\' ∉ s) (hs : Wrap.strip s = s)
    (he : Wrap.strip (escaped s) = escaped s) (hu : Unquoted s) (hu' : Unquoted (escaped s)) :
    compareXml parse (escaped s) b = compareXml parse s b ∧ compareXml parse b (escaped s) = compareXml parse b s := by
  have h1 : unescape (Wrap.strip (escaped s)) = unescape (Wrap.strip s) := by
    rw [he, hs, unescape_escaped s hb, unescape_id s hb]
  have e1 : stripQuotes (escaped s) b = (escaped s, b) := by simp [stripQuotes, hu'.false.1, hu'.false.2]
  have e2 : stripQuotes s b = (s, b) := by simp [stripQuotes, hu.false.1, hu.false.2]
  have e3 : stripQuotes b (escaped s) = (b, escaped s) := by simp [stripQuotes, hu'.false.1, hu'.false.2]
  have e4 : stripQuotes b s = (b, s) := by simp [stripQuotes, hu.false.1, hu.false.2]
  constructor
  · simp only [compareXml, e1, e2, h1]
  · simp only [compareXml, e3, e4, h1]

example : '\\' ∉ "<a>\n<b/></a>".toList ∧ Wrap.strip "<a>\n<b/></a>".toList = "<a>\n<b/></a>".toList ∧
    Wrap.strip (escaped "<a>\n<b/></a>".toList) = "<a>\\n<b/></a>".toList ∧ Unquoted "<a>\n<b/></a>".toList := by
  decide +kernel

/-- A toy parser that knows three texts, enough to see the comparison at work. -/
def exParse (s : Text) : Option (List Dom) :=
  if s = "<root><a x=\"1\" y=\"2\"/></root>".toList then
    some [.elem "root".toList [] [.elem ['a'] [(['x'], ['1']), (['y'], ['2'])] []]]
  else if s = "<root><a y=\"2\" x=\"1\"/></root>".toList then
    some [.elem "root".toList [] [.elem ['a'] [(['y'], ['2']), (['x'], ['1'])] []]]
  else if s = "<a y=\"2\" x=\"1\"/>".toList then some [.elem ['a'] [(['y'], ['2']), (['x'], ['1'])] []]
  else if s = "<?xml?><a x=\"1\" y=\"2\"/>".toList then some [.elem ['a'] [(['x'], ['1']), (['y'], ['2'])] []]
  else none

example : Unquoted "<a x=\"1\" y=\"2\"/>".toList ∧ Unquoted " <a y=\"2\" x=\"1\"/>\n".toList ∧
    declared (text1 "<a x=\"1\" y=\"2\"/>".toList) = declared (text1 " <a y=\"2\" x=\"1\"/>\n".toList) ∧
    compareXml exParse "<a x=\"1\" y=\"2\"/>".toList " <a y=\"2\" x=\"1\"/>\n".toList = some true := by
  decide +kernel

example : Unquoted "<?xml?><a x=\"1\" y=\"2\"/>".toList ∧ "<?xml".toList <+: text1 "<?xml?><a x=\"1\" y=\"2\"/>".toList ∧
    exParse (text1 "<?xml?><a x=\"1\" y=\"2\"/>".toList) = some ([] ++ .elem ['a'] [(['x'], ['1']), (['y'], ['2'])] [] :: []) ∧
    exParse (text1 "<a y=\"2\" x=\"1\"/>".toList) = some ([] ++ .elem ['a'] [(['y'], ['2']), (['x'], ['1'])] [] :: []) :=
  ⟨(by decide +kernel), (by decide +kernel),
    (by unfold exParse; rw [if_neg (by decide +kernel), if_neg (by decide +kernel), if_neg (by decide +kernel), if_pos (by decide +kernel)]; rfl),
    (by unfold exParse; rw [if_neg (by decide +kernel), if_neg (by decide +kernel), if_pos (by decide +kernel)]; rfl)⟩

example : ¬ "<?xml".toList <+: text1 "<a x=\"1\" y=\"2\"/>".toList ∧
    exParse ("<root>".toList ++ text1 "<a x=\"1\" y=\"2\"/>".toList ++ "</root>".toList) =
      some (.elem "root".toList [] [.elem ['a'] [(['x'], ['1']), (['y'], ['2'])] []] :: []) ∧
    exParse ("<root>".toList ++ text1 " <a y=\"2\" x=\"1\"/>\n".toList ++ "</root>".toList) =
      some (.elem "root".toList [] [.elem ['a'] [(['y'], ['2']), (['x'], ['1'])] []] :: []) :=
  ⟨(by decide +kernel), (by unfold exParse; rw [if_pos (by decide +kernel)]),
    (by unfold exParse; rw [if_neg (by decide +kernel), if_pos (by decide +kernel)])⟩

/-- Only the first text decides whether a root element is put around both: with a declaration on one
side only the answer depends on the order. -/
theorem C49_false_symmetry :
    compareXml exParse "<?xml?><a x=\"1\" y=\"2\"/>".toList "<a y=\"2\" x=\"1\"/>".toList = some true ∧
    compareXml exParse "<a y=\"2\" x=\"1\"/>".toList "<?xml?><a x=\"1\" y=\"2\"/>".toList = none := by
  decide +kernel

/-- Where the text stands between the children is not compared. -/
theorem C49_false_text_position :
    check (.elem ['p'] [] [.text ['x'], .elem ['b'] [] [], .text ['y']])
      (.elem ['p'] [] [.text ['x', 'y'], .elem ['b'] [] []]) = true := by decide +kernel

/-- The content of CDATA sections is not compared. -/
theorem C49_false_cdata (d d' : Text) : check (.elem ['p'] [] [.other d]) (.elem ['p'] [] [.other d']) = true := by
  simp [check, checkL, childText, norm, attrsEq, Dom.isElem, kidsOf]

/-- White space around the text of an element does count, indentation for instance. -/
theorem C49_false_surrounding_white_space :
    check (.elem ['p'] [] [.text "\n  ".toList, .elem ['b'] [] []]) (.elem ['p'] [] [.elem ['b'] [] []]) = false := by
  decide +kernel

end Verif.CmpXml
