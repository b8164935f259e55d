import Verif.Abc.Lemmas
import Mathlib.Data.List.Forall2
/-
What is known of every class that has been made, whatever class statements were executed.
-/
namespace Verif.Abc

theorem checkBases_cons (ns get id b bs missing valid reg) :
    checkBases ns get id (b :: bs) missing valid reg =
    if b.auto then
      match checkMembers get (checkOf ns b.id) b.statics missing valid with
      | none => (reg, .error .member)
      | some (missing', valid') =>
        if b.hook then
          match register reg get id with
          | none => (reg, .error .register)
          | some reg' => checkBases ns get id bs missing' valid' reg'
        else checkBases ns get id bs missing' valid' reg
    else checkBases ns get id bs missing valid reg := by
  rw [checkBases]; rfl

/-- One base of the loop, if the loop ends well. -/
theorem checkBases_step {ns get id b bs missing valid reg reg' out}
    (h : checkBases ns get id (b :: bs) missing valid reg = (reg', .ok out)) :
    (b.auto = false ∧ checkBases ns get id bs missing valid reg = (reg', .ok out)) ∨
    (b.auto = true ∧ ∃ missing' valid' reg1,
      checkMembers get (checkOf ns b.id) b.statics missing valid = some (missing', valid') ∧
      (b.hook = true → register reg get id = some reg1) ∧ (b.hook = false → reg1 = reg) ∧
      checkBases ns get id bs missing' valid' reg1 = (reg', .ok out)) := by
  rw [checkBases_cons] at h
  cases ha : b.auto with
  | false => rw [if_neg (by simp [ha])] at h; exact Or.inl ⟨rfl, h⟩
  | true =>
    rw [if_pos ha] at h
    refine Or.inr ⟨rfl, ?_⟩
    cases hm : checkMembers get (checkOf ns b.id) b.statics missing valid with
    | none => simp [hm] at h
    | some q =>
      obtain ⟨m', v'⟩ := q
      simp only [hm] at h
      cases hh : b.hook with
      | false =>
        rw [if_neg (by simp [hh])] at h
        exact ⟨m', v', reg, rfl, by simp, fun _ => rfl, h⟩
      | true =>
        rw [if_pos hh] at h
        cases hr : register reg get id with
        | none => simp [hr] at h
        | some r1 =>
          simp only [hr] at h
          exact ⟨m', v', r1, rfl, fun _ => rfl, by simp, h⟩

/-- The members that were missing stay missing. -/
theorem checkBases_missing {ns get id} : ∀ {bs missing valid reg reg' out},
    checkBases ns get id bs missing valid reg = (reg', .ok out) → ∀ m ∈ missing, m ∈ out
  | [], missing, valid, reg, reg', out, h, m, hm => by
    simp only [checkBases, Prod.mk.injEq, Except.ok.injEq] at h
    exact h.2 ▸ hm
  | b :: bs, missing, valid, reg, reg', out, h, m, hm => by
    rcases checkBases_step h with ⟨-, h'⟩ | ⟨-, m', v', r1, hc, -, -, h'⟩
    · exact checkBases_missing h' m hm
    · exact checkBases_missing h' m ((checkMembers_spec hc).1 m hm)

/-- If nothing is missing at the end, every member declared by a base has a value, and the first base that declares
it accepts the value. -/
theorem checkBases_first {ns get id m} : ∀ {pre b post missing valid reg reg'},
    checkBases ns get id (pre ++ b :: post) missing valid reg = (reg', .ok []) →
    b.auto = true → m ∈ b.statics → m ∉ valid → (∀ d ∈ pre, d.auto = true → m ∉ d.statics) →
    ∃ v, get m = some v ∧ v.settled = true ∧ accepts (checkOf ns b.id m) v = true
  | [], b, post, missing, valid, reg, reg', h, ha, hm, hv, _ => by
    rw [List.nil_append] at h
    rcases checkBases_step h with ⟨ha', -⟩ | ⟨-, m', v', r1, hc, -, -, h'⟩
    · rw [ha] at ha'; cases ha'
    · obtain ⟨s1, s2, s3, s4, s5⟩ := checkMembers_spec hc
      rcases s4 m hm with h1 | h1
      · rcases s3 m h1 with h2 | ⟨-, h2⟩
        · exact absurd h2 hv
        · exact h2
      · exact absurd (checkBases_missing h' m h1) List.not_mem_nil
  | d :: pre, b, post, missing, valid, reg, reg', h, ha, hm, hv, hp => by
    rw [List.cons_append] at h
    rcases checkBases_step h with ⟨-, h'⟩ | ⟨hda, m', v', r1, hc, -, -, h'⟩
    · exact checkBases_first h' ha hm hv (fun x hx => hp x (List.mem_cons_of_mem _ hx))
    · refine checkBases_first h' ha hm ?_ (fun x hx => hp x (List.mem_cons_of_mem _ hx))
      intro hv'
      obtain ⟨s1, s2, s3, s4, s5⟩ := checkMembers_spec hc
      rcases s3 m hv' with h1 | ⟨h1, -⟩
      · exact hv h1
      · exact hp d (by simp) hda h1

/-- The first element with a property. -/
theorem first_split {α} {p : α → Prop} : ∀ {l : List α}, (∃ x ∈ l, p x) →
    ∃ pre x post, l = pre ++ x :: post ∧ p x ∧ ∀ y ∈ pre, ¬ p y
  | [], ⟨x, hx, _⟩ => absurd hx List.not_mem_nil
  | a :: l, ⟨x, hx, hp⟩ => by
    by_cases ha : p a
    · exact ⟨[], a, l, rfl, ha, by simp⟩
    · have : ∃ x ∈ l, p x := by
        rcases List.mem_cons.mp hx with rfl | hx
        · exact absurd hp ha
        · exact ⟨x, hx, hp⟩
      obtain ⟨pre, y, post, rfl, hy, hn⟩ := first_split this
      refine ⟨a :: pre, y, post, rfl, hy, ?_⟩
      intro z hz
      rcases List.mem_cons.mp hz with rfl | hz
      · exact ha
      · exact hn z hz

/-! ### What is known of a class -/

/-- The facts about the class `c` with number `i`. -/
structure Made (w : World) (i : Nat) (c : Cls) : Prop where
  id : c.id = i
  lt : i < w.next
  tail : ∃ t, c.mro = i :: t ∧ ∀ x ∈ t, ∃ j ∈ c.bases, ∃ b, w.get j = some b ∧ x ∈ b.mro
  nodup : c.mro.Nodup
  le : ∀ x ∈ c.mro, x ≤ i
  sub : ∀ j ∈ c.bases, ∃ b, w.get j = some b ∧ j < i ∧ List.Sublist b.mro c.mro
  order : List.Sublist c.bases c.mro
  auto : c.auto = true ↔ (c.iface = true ∨ ∃ j ∈ c.bases, ∃ b, w.get j = some b ∧ b.auto = true)
  plain : c.auto = false → c.abstracts = [] ∧ c.statics = []
  abs : c.auto = true → ∀ m, m ∈ c.abstracts ↔ ((w.ns i).lookup m = some .absMethod ∨
    (look w.ns c.mro m = some .absMethod ∧ ∃ j ∈ c.bases, ∃ b, w.get j = some b ∧ m ∈ b.abstracts))
  statics : c.auto = true → ∀ m, m ∈ c.statics ↔ ∃ k, (w.ns i).lookup m = some (.static k)
  conc : c.auto = true → c.abstracts = [] → c.statics = [] ∧
    ∀ m pre j post b, c.bases = pre ++ j :: post → w.get j = some b → b.auto = true → m ∈ b.statics →
      (∀ j' ∈ pre, ∀ d, w.get j' = some d → d.auto = true → m ∉ d.statics) →
      ∃ v, look w.ns c.mro m = some v ∧ v.settled = true ∧ accepts (checkOf w.ns j m) v = true

def Inv (w : World) : Prop := ∀ i c, w.get i = some c → Made w i c

theorem mapM_get {w : World} : ∀ {is bs}, is.mapM w.get = some bs →
    List.Forall₂ (fun i b => w.get i = some b) is bs
  | [], bs, h => by
    simp at h; subst h; exact .nil
  | i :: is, bs, h => by
    rw [List.mapM_cons] at h
    cases hg : w.get i with
    | none => simp [hg] at h
    | some b =>
      cases hm : is.mapM w.get with
      | none => simp [hg, hm] at h
      | some bs' =>
        simp [hg, hm] at h
        subst h
        exact .cons hg (mapM_get hm)

theorem forall2_left {α β} {R : α → β → Prop} : ∀ {l r}, List.Forall₂ R l r → ∀ a ∈ l, ∃ b ∈ r, R a b
  | _, _, .nil, a, h => absurd h List.not_mem_nil
  | _, _, .cons (a := x) (b := y) h t, a, ha => by
    rcases List.mem_cons.mp ha with rfl | ha
    · exact ⟨y, by simp, h⟩
    · obtain ⟨b, hb, hr⟩ := forall2_left t a ha
      exact ⟨b, by simp [hb], hr⟩

theorem forall2_right {α β} {R : α → β → Prop} : ∀ {l r}, List.Forall₂ R l r → ∀ b ∈ r, ∃ a ∈ l, R a b
  | _, _, .nil, a, h => absurd h List.not_mem_nil
  | _, _, .cons (a := x) (b := y) h t, b, hb => by
    rcases List.mem_cons.mp hb with rfl | hb
    · exact ⟨x, by simp, h⟩
    · obtain ⟨a, ha, hr⟩ := forall2_right t b hb
      exact ⟨a, by simp [ha], hr⟩

theorem forall2_split {α β} {R : α → β → Prop} : ∀ {pre a post r}, List.Forall₂ R (pre ++ a :: post) r →
    ∃ pre' b post', r = pre' ++ b :: post' ∧ R a b ∧ List.Forall₂ R pre pre'
  | [], a, post, _, .cons (b := b) (l₂ := t) h _ => ⟨[], b, t, rfl, h, .nil⟩
  | x :: pre, a, post, _, .cons (b := y) h t => by
    obtain ⟨pre', b, post', rfl, hr, hf⟩ := forall2_split t
    exact ⟨y :: pre', b, post', rfl, hr, .cons h hf⟩

/-- The world with a new class. -/
def World.add (w : World) (c : Cls) (body : Body) (reg : List Entry) : World :=
  { classes := w.classes ++ [c], ns := addNs w.ns w.next body, registry := reg, next := w.next + 1 }

theorem get_add_old {w : World} {c body reg i b} (hb : w.get i = some b) :
    (w.add c body reg).get i = some b := by
  unfold World.get World.add at *
  simp [List.find?_append, hb]

theorem get_lt {w : World} (hi : Inv w) {i b} (hb : w.get i = some b) : i < w.next := (hi i b hb).lt

theorem get_add {w : World} (hi : Inv w) {c body reg i b} (hc : c.id = w.next)
    (hb : (w.add c body reg).get i = some b) : (i = w.next ∧ b = c) ∨ (i < w.next ∧ w.get i = some b) := by
  unfold World.get World.add at hb
  simp only [List.find?_append, List.find?_singleton] at hb
  cases hg : w.classes.find? (fun c => decide (c.id = i)) with
  | some b' =>
    rw [hg] at hb
    simp only [Option.some_or, Option.some.injEq] at hb
    subst hb
    exact Or.inr ⟨get_lt hi hg, hg⟩
  | none =>
    rw [hg] at hb
    simp only [Option.none_or] at hb
    by_cases h : c.id = i
    · simp only [h, decide_true, if_true, Option.some.injEq] at hb
      exact Or.inl ⟨by omega, hb.symm⟩
    · simp [h] at hb

theorem addNs_old {ns : Nat → Body} {id body i} (h : i ≠ id) : addNs ns id body i = ns i := by
  simp [addNs, h]

theorem addNs_new {ns : Nat → Body} {id body} : addNs ns id body id = body := by
  simp [addNs]

/-- What is known of a class stays true when another one is made. -/
theorem Made.add {w : World} (hi : Inv w) {i c} (h : Made w i c) {n body reg} (hn : n.id = w.next) :
    Made (w.add n body reg) i c := by
  have hlt := h.lt
  have hns : (w.add n body reg).ns i = w.ns i := addNs_old (by omega)
  have hlook : ∀ m, look (w.add n body reg).ns c.mro m = look w.ns c.mro m := fun m =>
    look_congr (fun x hx => addNs_old (by have := h.le x hx; omega))
  have hgo : ∀ {j b}, w.get j = some b → (w.add n body reg).get j = some b := fun hb => get_add_old hb
  have hgn : ∀ {j b}, j ∈ c.bases → (w.add n body reg).get j = some b → w.get j = some b := by
    intro j b hj hb
    obtain ⟨b', hb', hl, -⟩ := h.sub j hj
    rcases get_add hi hn hb with ⟨rfl, -⟩ | ⟨-, hb⟩
    · omega
    · exact hb
  have hex : ∀ {P : Cls → Prop}, (∃ j ∈ c.bases, ∃ b, (w.add n body reg).get j = some b ∧ P b) ↔
      (∃ j ∈ c.bases, ∃ b, w.get j = some b ∧ P b) := by
    intro P
    constructor
    · rintro ⟨j, hj, b, hb, hp⟩; exact ⟨j, hj, b, hgn hj hb, hp⟩
    · rintro ⟨j, hj, b, hb, hp⟩; exact ⟨j, hj, b, hgo hb, hp⟩
  refine ⟨h.id, ?_, ?_, h.nodup, h.le, ?_, h.order, ?_, h.plain, ?_, ?_, ?_⟩
  · show i < w.next + 1; omega
  · obtain ⟨t, ht, hx⟩ := h.tail
    exact ⟨t, ht, fun x hxt => hex.mpr (hx x hxt)⟩
  · intro j hj
    obtain ⟨b, hb, hl, hs⟩ := h.sub j hj
    exact ⟨b, hgo hb, hl, hs⟩
  · rw [hex]; exact h.auto
  · intro ha m
    rw [hlook, hns, hex]
    exact h.abs ha m
  · intro ha m
    rw [hns]
    exact h.statics ha m
  · intro ha hab
    obtain ⟨h1, h2⟩ := h.conc ha hab
    refine ⟨h1, ?_⟩
    intro m pre j post b hbs hb hba hm hpre
    have hj : j ∈ c.bases := by rw [hbs]; simp
    rw [hlook]
    have hck : checkOf (w.add n body reg).ns j m = checkOf w.ns j m := by
      obtain ⟨b', hb', hl, -⟩ := h.sub j hj
      unfold checkOf
      rw [show (w.add n body reg).ns j = w.ns j from addNs_old (by omega)]
    rw [hck]
    refine h2 m pre j post b hbs (hgn hj hb) hba hm ?_
    intro j' hj' d hd
    exact hpre j' hj' d (hgo hd)

/-- What is known of the new class. -/
theorem made_new {w : World} (hi : Inv w) {s : Stmt} {bs mro c reg} (hbs : s.bases.mapM w.get = some bs)
    (hm : linearise w.next s.bases (bs.map Cls.mro) = some mro) (hid : c.id = w.next) (hb : c.bases = s.bases)
    (hmro : c.mro = mro) (hauto : c.auto = (s.names || bs.any Cls.auto)) (hif : c.iface = true → c.auto = true)
    (hnm : s.names = true → c.iface = true)
    (hplain : c.auto = false → c.abstracts = [] ∧ c.statics = [])
    (habs : c.auto = true → c.abstracts = abstractsOf (look (addNs w.ns w.next s.body) mro) s.body bs)
    (hst : c.auto = true → c.statics = ownStatics s.body)
    (hconc : c.auto = true → c.abstracts = [] → ∃ reg reg',
      checkBases (addNs w.ns w.next s.body) (look (addNs w.ns w.next s.body) mro) w.next bs (ownStatics s.body) []
        reg = (reg', .ok [])) :
    Made (w.add c s.body reg) w.next c := by
  have hf := mapM_get hbs
  obtain ⟨t, ht, rfl⟩ : ∃ t, merge ((bs.map Cls.mro ++ [s.bases]).map List.length).sum
      (bs.map Cls.mro ++ [s.bases]) = some t ∧ w.next :: t = mro := by
    unfold linearise at hm
    simpa using hm
  have hgo : ∀ {j b}, w.get j = some b → (w.add c s.body reg).get j = some b := fun hb => get_add_old hb
  have hmem : ∀ x ∈ t, ∃ j ∈ s.bases, ∃ b, w.get j = some b ∧ x ∈ b.mro := by
    intro x hx
    obtain ⟨l, hl, hxl⟩ := merge_mem _ _ _ ht x hx
    rcases List.mem_append.mp hl with hl | hl
    · obtain ⟨b, hb, rfl⟩ := List.mem_map.mp hl
      obtain ⟨j, hj, hr⟩ := forall2_right hf b hb
      exact ⟨j, hj, b, hr, hxl⟩
    · simp only [List.mem_singleton] at hl
      subst hl
      obtain ⟨b, hb, hr⟩ := forall2_left hf x hxl
      obtain ⟨t', ht', -⟩ := (hi x b hr).tail
      exact ⟨x, hxl, b, hr, by simp [ht']⟩
  have hle : ∀ x ∈ t, x < w.next := by
    intro x hx
    obtain ⟨j, hj, b, hg, hxb⟩ := hmem x hx
    have h1 := (hi j b hg).le x hxb
    have h2 := (hi j b hg).lt
    omega
  have hgn : ∀ {j b}, j ∈ s.bases → (w.add c s.body reg).get j = some b → w.get j = some b := by
    intro j b hj hb
    obtain ⟨b', -, hb'⟩ := forall2_left hf j hj
    rcases get_add hi hid hb with ⟨rfl, -⟩ | ⟨-, hb⟩
    · exact absurd (get_lt hi hb') (Nat.lt_irrefl _)
    · exact hb
  have hex : ∀ {P : Cls → Prop}, (∃ j ∈ s.bases, ∃ b, (w.add c s.body reg).get j = some b ∧ P b) ↔
      (∃ b ∈ bs, P b) := by
    intro P
    constructor
    · rintro ⟨j, hj, b, hb, hp⟩
      obtain ⟨b', hm, hb'⟩ := forall2_left hf j hj
      have := (hgn hj hb).symm.trans hb'
      cases this
      exact ⟨b, hm, hp⟩
    · rintro ⟨b, hb, hp⟩
      obtain ⟨j, hj, hr⟩ := forall2_right hf b hb
      exact ⟨j, hj, b, hgo hr, hp⟩
  have hns : (w.add c s.body reg).ns w.next = s.body := addNs_new
  refine ⟨hid, ?_, ⟨t, hmro, ?_⟩, ?_, ?_, ?_, ?_, ?_, hplain, ?_, ?_, ?_⟩
  · show w.next < w.next + 1; omega
  · intro x hx
    obtain ⟨j, hj, b, hg, hxb⟩ := hmem x hx
    exact ⟨j, hb ▸ hj, b, hgo hg, hxb⟩
  · rw [hmro]
    exact List.nodup_cons.mpr ⟨fun h => absurd (hle _ h) (Nat.lt_irrefl _), merge_nodup _ _ _ ht⟩
  · rw [hmro]
    intro x hx
    rcases List.mem_cons.mp hx with rfl | hx
    · exact Nat.le_refl _
    · exact Nat.le_of_lt (hle x hx)
  · intro j hj
    rw [hb] at hj
    obtain ⟨b, hbm, hr⟩ := forall2_left hf j hj
    refine ⟨b, hgo hr, get_lt hi hr, ?_⟩
    rw [hmro]
    exact (merge_sub _ _ _ ht b.mro (by simp; exact Or.inl ⟨b, hbm, rfl⟩)).cons _
  · rw [hb, hmro]
    exact (merge_sub _ _ _ ht s.bases (by simp)).cons _
  · rw [hb, hex]
    constructor
    · intro h
      rw [hauto, Bool.or_eq_true, List.any_eq_true] at h
      exact h.imp hnm (fun h => h)
    · rintro (h | h)
      · exact hif h
      · rw [hauto, Bool.or_eq_true, List.any_eq_true]; exact Or.inr h
  · intro ha m
    rw [habs ha, hb, hex, hns, hmro]
    unfold abstractsOf
    rw [List.mem_append, mem_ownAbstracts, List.mem_filter, List.mem_flatMap]
    simp only [decide_eq_true_eq]
    exact or_congr Iff.rfl ⟨fun h => ⟨h.2, h.1⟩, fun h => ⟨h.2, h.1⟩⟩
  · intro ha m
    rw [hst ha, hns]
    exact mem_ownStatics
  · intro ha hab
    obtain ⟨r0, r1, hc⟩ := hconc ha hab
    refine ⟨?_, ?_⟩
    · rw [hst ha]
      exact List.eq_nil_iff_forall_not_mem.mpr (fun m hm => absurd (checkBases_missing hc m hm) List.not_mem_nil)
    · intro m pre j post b hbs' hgb hba hms hpre
      rw [hb] at hbs'
      have hf' := hf
      rw [hbs'] at hf'
      obtain ⟨pre', b', post', rfl, hr, hfp⟩ := forall2_split hf'
      have hj : j ∈ s.bases := by rw [hbs']; simp
      have := (hgn hj hgb).symm.trans hr
      cases this
      have hbid := (hi j _ hr).id
      rw [hmro, ← hbid]
      refine checkBases_first hc hba hms List.not_mem_nil ?_
      intro d hd
      obtain ⟨j', hj', hdr⟩ := forall2_right hfp d hd
      exact hpre j' hj' d (hgo hdr)

theorem Inv.next {w : World} (h : Inv w) {reg} {n : Nat} (hn : w.next ≤ n) :
    Inv { w with next := n, registry := reg } := by
  intro i c hc
  have m := h i c hc
  exact ⟨m.id, by have := m.lt; show i < n; omega, m.tail, m.nodup, m.le, m.sub, m.order, m.auto, m.plain, m.abs, m.statics,
    m.conc⟩

theorem inv_add {w : World} (h : Inv w) {c body reg} (hid : c.id = w.next)
    (hm : Made (w.add c body reg) w.next c) : Inv (w.add c body reg) := by
  intro i b hb
  rcases get_add h hid hb with ⟨rfl, rfl⟩ | ⟨-, hb'⟩
  · exact hm
  · exact (h i b hb').add h hid

theorem exec_inv {w : World} (h : Inv w) (s : Stmt) : Inv (exec w s).1 := by
  have fail : ∀ reg, Inv { w with next := w.next + 1, registry := reg } := fun reg => h.next (Nat.le_succ _)
  unfold exec
  cases hbs : s.bases.mapM w.get with
  | none => exact fail w.registry
  | some bs =>
    dsimp only
    cases hm : linearise w.next s.bases (bs.map Cls.mro) with
    | none => exact fail w.registry
    | some mro =>
      dsimp only
      by_cases ha : (s.names || bs.any Cls.auto) = true
      · rw [if_pos ha]
        by_cases hab : (abstractsOf (look (addNs w.ns w.next s.body) mro) s.body bs).isEmpty = true
        · rw [if_pos hab]
          cases hc : checkBases (addNs w.ns w.next s.body) (look (addNs w.ns w.next s.body) mro) w.next bs
              (ownStatics s.body) [] w.registry with
          | mk reg r =>
            cases r with
            | error e => exact fail reg
            | ok missing =>
              dsimp only
              by_cases hmi : missing.isEmpty = true
              · rw [if_pos hmi]
                have : missing = [] := by simpa using hmi
                subst this
                refine inv_add (c := ⟨w.next, s.bases, mro, true, _, ownStatics s.body, s.hook, s.names⟩) h rfl
                  (made_new h hbs hm rfl rfl rfl ha.symm (fun _ => rfl) (fun h => h) ?_ ?_ ?_ ?_)
                · intro h; cases h
                · intro _; rfl
                · intro _; rfl
                · intro _ _; exact ⟨_, _, hc⟩
              · rw [if_neg hmi]; exact fail reg
        · rw [if_neg hab]
          refine inv_add (c := ⟨w.next, s.bases, mro, true, _, ownStatics s.body, s.hook, s.names⟩) h rfl
            (made_new h hbs hm rfl rfl rfl ha.symm (fun _ => rfl) (fun h => h) ?_ ?_ ?_ ?_)
          · intro h; cases h
          · intro _; rfl
          · intro _; rfl
          · intro _ he; simp only at he; rw [he] at hab; exact absurd rfl hab
      · rw [if_neg ha]
        have hn : s.names = false := by
          cases hs : s.names with
          | false => rfl
          | true => simp [hs] at ha
        refine inv_add (c := ⟨w.next, s.bases, mro, false, [], [], false, false⟩) h rfl
          (made_new h hbs hm rfl rfl rfl (by simpa using ha) ?_ ?_ ?_ ?_ ?_ ?_)
        · intro h; cases h
        · intro h; rw [hn] at h; cases h
        · intro _; exact ⟨rfl, rfl⟩
        · intro h; cases h
        · intro h; cases h
        · intro h; cases h

theorem step_inv {w : World} (h : Inv w) (e : Ev) : Inv (step w e) := by
  cases e with
  | stmt s => exact exec_inv h s
  | collect => exact h.next (Nat.le_refl _)

theorem run_inv (evs : List Ev) : Inv (run evs) := by
  have : ∀ (evs : List Ev) (w : World), Inv w → Inv (evs.foldl step w) := by
    intro evs
    induction evs with
    | nil => intro w h; exact h
    | cons e evs ih => intro w h; exact ih _ (step_inv h e)
  refine this evs {} ?_
  intro i c hc
  simp [World.get] at hc

end Verif.Abc
