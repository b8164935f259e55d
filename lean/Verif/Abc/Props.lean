import Verif.Abc.Registry
/-
C95: component classes that can be used say what they carry, and adapters are found by what they say.
-/
namespace Verif.Abc

/-! ### Specification -/

/-- `getattr(cls, m)`. -/
def World.value (w : World) (c : Cls) (m : String) : Option Val := look w.ns c.mro m

/-- Class `i` declares the member `m` as required, to be checked by `k`. -/
def World.requires (w : World) (i : Nat) (m : String) (k : Check) : Prop := (w.ns i).lookup m = some (.static k)

/-- A value that is not itself the declaration. -/
def Given (v : Val) : Prop := ∀ k, v ≠ .static k

/-- A value fit for what is checked: for `_expects` and `_provides` a class or `ANY`, or a tuple of nothing else; for
other members anything defined, where `ANY`, which equals everything, is taken for `None`. -/
def Passes : Check → Val → Prop
  | .typesOnly, v => (∃ n, v = .one (.cls n)) ∨ v = .one .any ∨ ∃ is, v = .many is ∧ ∀ i ∈ is, (∃ n, i = .cls n) ∨ i = .any
  | .defined, v => v ≠ .nothing ∧ v ≠ .notImpl ∧ v ≠ .one .any

theorem accepts_iff (k : Check) (v : Val) : accepts k v = true ↔ Passes k v := by
  cases k
  · cases v with
    | one i => cases i <;> simp [accepts, Passes, Item.isType]
    | many is =>
      simp only [accepts, Passes, List.all_eq_true]
      constructor
      · intro h
        refine .inr (.inr ⟨is, rfl, fun i hi => ?_⟩)
        have := h i hi
        cases i <;> simp_all [Item.isType]
      · rintro (⟨n, h⟩ | h | ⟨is', h, h'⟩)
        · cases h
        · cases h
        · cases h
          intro i hi
          rcases h' i hi with ⟨n, rfl⟩ | rfl <;> rfl
    | _ => simp [accepts, Passes]
  · cases v with
    | one i => cases i <;> simp [accepts, Passes]
    | _ => simp [accepts, Passes]

/-- Every class statement of the program worked. -/
def AllWork : World → List Stmt → Prop
  | _, [] => True
  | w, s :: ss => (∃ c, (exec w s).2 = .ok c) ∧ AllWork (exec w s).1 ss

/-! ### Theorems -/

/-- **What the bases require is there.**  Whatever classes have been made: in a class with the metaclass that has no
abstract method left, every member that one of its own bases requires has a value, which is not the declaration and
not `NotImplemented`, and it passes the check of the first of its bases that requires it.  The class requires nothing
itself.  Missing: members required further up (`C95_false`). -/
theorem C95_bases_partial (evs : List Ev) {i : Nat} {c : Cls} (hc : (run evs).get i = some c) (ha : c.auto = true)
    (hn : c.abstracts = []) :
    (∀ m k, ¬ (run evs).requires i m k) ∧
    ∀ j ∈ c.bases, ∀ b, (run evs).get j = some b → b.auto = true → ∀ m k, (run evs).requires j m k →
      ∃ v, (run evs).value c m = some v ∧ Given v ∧ v ≠ .notImpl ∧
        ∃ pre j' post k', c.bases = pre ++ j' :: post ∧ (run evs).requires j' m k' ∧ Passes k' v ∧
          ∀ x ∈ pre, ∀ d, (run evs).get x = some d → d.auto = true → ∀ k'', ¬ (run evs).requires x m k'' := by
  have hi := run_inv evs
  have hm := hi i c hc
  obtain ⟨h1, h2⟩ := hm.conc ha hn
  refine ⟨?_, ?_⟩
  · intro m k hr
    have := (hm.statics ha m).mpr ⟨k, hr⟩
    rw [h1] at this
    exact absurd this List.not_mem_nil
  · intro j hj b hb hba m k hr
    have hst : ∀ {j b}, (run evs).get j = some b → b.auto = true →
        (m ∈ b.statics ↔ ∃ k, (run evs).requires j m k) := fun hb hba => (hi _ _ hb).statics hba m
    obtain ⟨pre, j', post, hsp, ⟨b', hb', hba', hmem⟩, hpre⟩ :=
      first_split (p := fun j => ∃ b, (run evs).get j = some b ∧ b.auto = true ∧ m ∈ b.statics)
        ⟨j, hj, b, hb, hba, (hst hb hba).mpr ⟨k, hr⟩⟩
    obtain ⟨v, hv, hs, hacc⟩ := h2 m pre j' post b' hsp hb' hba' hmem
      (fun x hx d hd hda hm => hpre x hx ⟨d, hd, hda, hm⟩)
    obtain ⟨k', hk'⟩ := (hst hb' hba').mp hmem
    refine ⟨v, hv, ?_, ?_, pre, j', post, k', hsp, hk', ?_, ?_⟩
    · rintro k rfl; simp [Val.settled] at hs
    · rintro rfl; simp [Val.settled] at hs
    · have : checkOf (run evs).ns j' m = k' := by
        unfold checkOf
        rw [show ((run evs).ns j').lookup m = some (.static k') from hk']
      rw [← accepts_iff, ← this]; exact hacc
    · intro x hx d hd hda k'' hr'
      exact hpre x hx ⟨d, hd, hda, (hst hd hda).mpr ⟨k'', hr'⟩⟩

/-- Every class that is not checked hands the requirements on: if one of its members is still the declaration, it
requires the member itself.  This is asked of abstract classes, and of classes without the metaclass, which must not
see a declaration at all. -/
def HandsOn (w : World) : Prop :=
  ∀ i c, w.get i = some c → (c.auto = false ∨ c.abstracts ≠ []) → ∀ m k, w.value c m = some (.static k) →
    c.auto = true ∧ ∃ k', w.requires i m k'

/-- **If every abstract class hands its requirements on, they reach everybody.**  Then every member required anywhere
above a class without abstract methods has a value there that is not the declaration.  The value need not be a
type. -/
theorem C95_handed_on_partial (evs : List Ev) (hh : HandsOn (run evs)) {i : Nat} {c : Cls}
    (hc : (run evs).get i = some c) (ha : c.auto = true) (hn : c.abstracts = []) :
    ∀ x ∈ c.mro, ∀ m k, (run evs).requires x m k → ∃ v, (run evs).value c m = some v ∧ Given v := by
  have hi := run_inv evs
  have main : ∀ n i c, i < n → (run evs).get i = some c → c.auto = true → c.abstracts = [] →
      ∀ m k, (run evs).value c m ≠ some (.static k) := by
    intro n
    induction n with
    | zero => intro i c h; omega
    | succ n ih =>
      intro i c hlt hc ha hn m k hv
      have hm := hi i c hc
      obtain ⟨o, ho, hom, hol⟩ := look_some hv
      obtain ⟨t, ht, htl⟩ := hm.tail
      rw [ht] at hom
      rcases List.mem_cons.mp hom with rfl | hot
      · exact (C95_bases_partial evs hc ha hn).1 m k hol
      · obtain ⟨j, hj, b, hb, hob⟩ := htl o hot
        obtain ⟨b', hb', hji, hsub⟩ := hm.sub j hj
        have hbb := hb.symm.trans hb'
        cases hbb
        have hbo := owner_sub hsub hm.nodup ho hob
        have hbv : (run evs).value b m = some (.static k) := by
          unfold World.value; rw [look_of_owner hbo]; exact hol
        have : b.auto = true ∧ ∃ k', (run evs).requires j m k' := by
          by_cases hx : b.auto = false ∨ b.abstracts ≠ []
          · exact hh j b hb hx m k hbv
          · have h1 : b.auto = true := by
              cases h : b.auto with
              | true => rfl
              | false => exact absurd (Or.inl h) hx
            have h2 : b.abstracts = [] := by
              by_cases h : b.abstracts = []
              · exact h
              · exact absurd (Or.inr h) hx
            exact absurd hbv (ih j b (by omega) hb h1 h2 m k)
        obtain ⟨hba, k', hr⟩ := this
        obtain ⟨v, hv', hg, -⟩ := (C95_bases_partial evs hc ha hn).2 j hj b hb hba m k' hr
        rw [hv] at hv'
        cases hv'
        exact hg k rfl
  intro x hx m k hr
  obtain ⟨v, hv⟩ := look_mem (m := m) hx hr
  refine ⟨v, hv, ?_⟩
  rintro k' rfl
  exact main (i + 1) i c (by omega) hc ha hn m k' hv

/-- **Interfaces cannot be instantiated**: a class that names the metaclass in its body, whatever it defines. -/
theorem C95_interfaces (w : World) (s : Stmt) (hs : s.names = true) (c : Cls) (h : (exec w s).2 = .ok c) : c.instantiable = false := by
  have : c.iface = true := by
    unfold exec at h
    simp only [hs, Bool.true_or, if_true] at h
    split at h
    · cases h
    · split at h
      · cases h
      · split at h
        · split at h
          · cases h
          · split at h
            · cases h; rfl
            · cases h
        · cases h; rfl
  simp [Cls.instantiable, this]

example : ((exec {} ⟨[], [], true, false⟩).2.toOption.map Cls.instantiable) = some false := by decide +kernel

/-- **No abstract method is left in what can be instantiated**, provided that classes without the metaclass have no
abstract methods (they would not be noticed). -/
theorem C95_methods (evs : List Ev)
    (hp : ∀ i c, (run evs).get i = some c → c.auto = false → ∀ m, ((run evs).ns i).lookup m ≠ some .absMethod)
    {i : Nat} {c : Cls} (hc : (run evs).get i = some c) (ha : c.auto = true) (m : String) :
    m ∈ c.abstracts ↔ (run evs).value c m = some .absMethod := by
  have hi := run_inv evs
  have noplain : ∀ n i c, i < n → (run evs).get i = some c → c.auto = false →
      ∀ x ∈ c.mro, ∃ d, (run evs).get x = some d ∧ d.auto = false := by
    intro n
    induction n with
    | zero => intro i c h; omega
    | succ n ih =>
      intro i c hlt hc ha x hx
      have hm := hi i c hc
      obtain ⟨t, ht, htl⟩ := hm.tail
      rw [ht] at hx
      rcases List.mem_cons.mp hx with rfl | hxt
      · exact ⟨c, hc, ha⟩
      · obtain ⟨j, hj, b, hb, hxb⟩ := htl x hxt
        obtain ⟨b', hb', hji, -⟩ := hm.sub j hj
        refine ih j b (by omega) hb ?_ x hxb
        cases h : b.auto with
        | false => rfl
        | true =>
          have := hm.auto.mpr (Or.inr ⟨j, hj, b, hb, h⟩)
          rw [ha] at this; cases this
  have main : ∀ n i c, i < n → (run evs).get i = some c → c.auto = true →
      (m ∈ c.abstracts ↔ (run evs).value c m = some .absMethod) := by
    intro n
    induction n with
    | zero => intro i c h; omega
    | succ n ih =>
      intro i c hlt hc ha
      have hm := hi i c hc
      obtain ⟨t, ht, htl⟩ := hm.tail
      rw [hm.abs ha m]
      constructor
      · rintro (h | ⟨h, -⟩)
        · have ho : owner (run evs).ns c.mro m = some i := by
            rw [ht, owner_cons, if_pos (by rw [h]; rfl)]
          unfold World.value
          rw [look_of_owner ho, h]
        · exact h
      · intro hv
        obtain ⟨o, ho, hom, hol⟩ := look_some hv
        rw [ht] at hom
        rcases List.mem_cons.mp hom with rfl | hot
        · exact Or.inl hol
        · refine Or.inr ⟨hv, ?_⟩
          obtain ⟨j, hj, b, hb, hob⟩ := htl o hot
          obtain ⟨b', hb', hji, hsub⟩ := hm.sub j hj
          have hbb := hb.symm.trans hb'
          cases hbb
          refine ⟨j, hj, b, hb, ?_⟩
          have hbo := owner_sub hsub hm.nodup ho hob
          have hbv : (run evs).value b m = some .absMethod := by
            unfold World.value; rw [look_of_owner hbo]; exact hol
          cases hba : b.auto with
          | true => exact (ih j b (by omega) hb hba).mpr hbv
          | false =>
            obtain ⟨d, hd, hda⟩ := noplain (j + 1) j b (by omega) hb hba o hob
            exact absurd hol (hp o d hd hda m)
  exact main (i + 1) i c (by omega) hc ha

/-- **Attributes are looked up in an order that respects every base.**  Whatever classes have been made, the order in
which attributes of a class are looked up begins with the class, names every class once, keeps the order in which the
bases are written and the order of each of the bases, and names nothing else. -/
theorem C95_order (evs : List Ev) {i : Nat} {c : Cls} (hc : (run evs).get i = some c) :
    (∃ t, c.mro = i :: t ∧ ∀ x ∈ t, ∃ j ∈ c.bases, ∃ b, (run evs).get j = some b ∧ x ∈ b.mro) ∧ c.mro.Nodup ∧
    List.Sublist c.bases c.mro ∧ ∀ j ∈ c.bases, ∃ b, (run evs).get j = some b ∧ List.Sublist b.mro c.mro := by
  have h := run_inv evs i c hc
  refine ⟨h.tail, h.nodup, h.order, ?_⟩
  intro j hj
  obtain ⟨b, hb, -, hs⟩ := h.sub j hj
  exact ⟨b, hb, hs⟩

/-- **Exactly which class statements work.**  A class with the metaclass whose bases exist and can be ordered and that
has no abstract method left is made if and only if its body declares no required member, every member required by one
of its bases has a value that the first of these bases accepts, and, if one of the bases registers its classes,
registering does not fail.  All other class statements whose bases exist and can be ordered work. -/
theorem C95_exact (evs : List Ev) (s : Stmt) {bs : List Cls} {mro : List Nat}
    (hbs : s.bases.mapM (run evs).get = some bs)
    (hm : linearise (run evs).next s.bases (bs.map Cls.mro) = some mro) :
    let w := run evs
    let get := look (addNs w.ns w.next s.body) mro
    (∃ c, (exec w s).2 = .ok c) ↔
      ((s.names || bs.any Cls.auto) = true → abstractsOf get s.body bs = [] →
        (∀ m k, s.body.lookup m ≠ some (.static k)) ∧
        (∀ pre b post m k, bs = pre ++ b :: post → b.auto = true → w.requires b.id m k →
          (∀ d ∈ pre, d.auto = true → ∀ k', ¬ w.requires d.id m k') →
          ∃ v, get m = some v ∧ Given v ∧ v ≠ .notImpl ∧ Passes k v) ∧
        ((∃ b ∈ bs, b.auto = true ∧ b.hook = true) → (register w.registry get w.next).isSome = true)) := by
  intro w get
  have hi : Inv w := run_inv evs
  have hf := mapM_get hbs
  have hmade : ∀ b ∈ bs, Made w b.id b := by
    intro b hb
    obtain ⟨j, -, hg⟩ := forall2_right hf b hb
    have := hi j b hg
    rw [this.id]; exact this
  have hns : ∀ b ∈ bs, addNs w.ns w.next s.body b.id = w.ns b.id := by
    intro b hb
    have := (hmade b hb).lt
    exact addNs_old (by omega)
  have hsettled : ∀ v : Val, v.settled = true ↔ (Given v ∧ v ≠ .notImpl) := by
    intro v
    cases v <;> simp [Val.settled, Given]
  constructor
  · rintro ⟨c, hc⟩ hau hab
    rcases exec_cases w s with ⟨reg, err, he⟩ | ⟨c', reg, bs', mro', he, hbs', hm', hid, hb, hmro, hau', hab', hck, hreg⟩
    · rw [he] at hc; cases hc
    · have e1 : bs' = bs := Option.some.inj (hbs'.symm.trans hbs)
      subst e1
      have e2 : mro' = mro := Option.some.inj (hm'.symm.trans hm)
      subst e2
      have ha : c'.auto = true := hau'.trans hau
      have hk := hck ha ((hab' ha).1.trans hab)
      refine ⟨?_, ?_, ?_⟩
      · intro m k hx
        exact absurd (checkBases_missing hk m (mem_ownStatics.mpr ⟨k, hx⟩)) List.not_mem_nil
      · intro pre b post m k hsp hba hrq hpre
        have hbm : b ∈ bs' := by rw [hsp]; simp
        rw [hsp] at hk
        obtain ⟨v, h1, h2, h3⟩ := checkBases_first hk hba (((hmade b hbm).statics hba m).mpr ⟨k, hrq⟩)
          List.not_mem_nil (fun d hd hda hx => by
            have hdm : d ∈ bs' := by rw [hsp]; simp [hd]
            obtain ⟨k', hk'⟩ := ((hmade d hdm).statics hda m).mp hx
            exact hpre d hd hda k' hk')
        refine ⟨v, h1, ((hsettled v).mp h2).1, ((hsettled v).mp h2).2, ?_⟩
        unfold checkOf at h3
        rw [hns b hbm, show (w.ns b.id).lookup m = some (.static k) from hrq] at h3
        exact (accepts_iff k v).mp h3
      · rintro ⟨b, hbm, h1, h2⟩
        rw [(checkBases_reg hk).1 (List.any_eq_true.mpr ⟨b, hbm, by simp [h1, h2]⟩)]
        rfl
  · intro h
    unfold exec
    rw [show w.next = (run evs).next from rfl, hbs]
    dsimp only
    rw [hm]
    dsimp only
    by_cases hau : (s.names || bs.any Cls.auto) = true
    · rw [if_pos hau]
      by_cases hab : (abstractsOf get s.body bs).isEmpty = true
      · have hab' : abstractsOf get s.body bs = [] := by simpa using hab
        obtain ⟨h1, h2, h3⟩ := h hau hab'
        have hown : ownStatics s.body = [] := by
          rw [List.eq_nil_iff_forall_not_mem]
          intro m hx
          obtain ⟨k, hk⟩ := mem_ownStatics.mp hx
          exact h1 m k hk
        rw [if_pos hab, hown]
        obtain ⟨reg', hr⟩ := checkBases_ok (ns := addNs w.ns w.next s.body) (get := get) (id := w.next) (bs := bs)
          (valid := []) (reg := w.registry) (by
            intro pre b post m hsp hba hx _ hpre
            have hbm : b ∈ bs := by rw [hsp]; simp
            obtain ⟨k, hk⟩ := ((hmade b hbm).statics hba m).mp hx
            obtain ⟨v, g1, g2, g3, g4⟩ := h2 pre b post m k hsp hba hk (fun d hd hda k' hk' => by
              have hdm : d ∈ bs := by rw [hsp]; simp [hd]
              exact hpre d hd hda (((hmade d hdm).statics hda m).mpr ⟨k', hk'⟩))
            refine ⟨v, g1, (hsettled v).mpr ⟨g2, g3⟩, ?_⟩
            unfold checkOf
            rw [hns b hbm, show (w.ns b.id).lookup m = some (.static k) from hk]
            exact (accepts_iff k v).mpr g4) (by
            intro hx
            obtain ⟨b, hbm, hb⟩ := List.any_eq_true.mp hx
            exact h3 ⟨b, hbm, by simpa using hb⟩)
        rw [show checkBases (addNs w.ns (run evs).next s.body) (look (addNs w.ns (run evs).next s.body) mro)
          (run evs).next bs [] [] w.registry = (reg', .ok []) from hr]
        exact ⟨_, rfl⟩
      · rw [if_neg hab]
        exact ⟨_, rfl⟩
    · rw [if_neg hau]
      exact ⟨_, rfl⟩

/-- **Adapters are found by their types.**  If every class statement worked, the class found for two types is the
first made that expects the one and provides the other, has no abstract methods left and derives directly from a
class with an `auto_register_impl` of its own; if there is none, none is found.  Missing: class statements that fail
(`C95_false_failed_statement`). -/
theorem C95_registry_partial (ss : List Stmt) (hw : AllWork {} ss) (e p : Val) :
    let w := run (ss.map .stmt)
    find w.registry e p = (w.classes.find? (offers w e p)).map Cls.id := by
  have main : ∀ (ss : List Stmt) (w : World), Inv w → Uniq w → FirstHeld w → AllWork w ss →
      FirstHeld ((ss.map Ev.stmt).foldl step w) := by
    intro ss
    induction ss with
    | nil => intro w _ _ h _; exact h
    | cons s ss ih =>
      intro w hi hu h hw
      exact ih _ (exec_inv hi s) (exec_uniq hi hu s) (exec_firstHeld hi hu h s hw.1) hw.2
  refine main ss {} ?_ ?_ ?_ hw e p
  · intro i c hc; simp [World.get] at hc
  · intro c hc; simp at hc
  · intro e p; rfl

/-- Equal as far as `ANY` lets one tell. -/
def AlikeItem (a b : Item) : Prop := a = b ∨ a = .any ∨ b = .any

/-- Equal as far as `ANY` lets one tell: tuples item by item. -/
def Alike (v w : Val) : Prop :=
  v = w ∨ v = .one .any ∨ w = .one .any ∨ ∃ as bs, v = .many as ∧ w = .many bs ∧ List.Forall₂ AlikeItem as bs

theorem Item.eqv_iff (a b : Item) : a.eqv b = true ↔ AlikeItem a b := by
  cases a <;> cases b <;> simp [Item.eqv, AlikeItem]

theorem eqvL_iff : ∀ as bs : List Item, eqvL as bs = true ↔ List.Forall₂ AlikeItem as bs
  | [], [] => by simp [eqvL]
  | [], b :: bs => by simp [eqvL]
  | a :: as, [] => by simp [eqvL]
  | a :: as, b :: bs => by simp [eqvL, Item.eqv_iff, eqvL_iff as bs]

theorem Val.eqv_iff (v w : Val) : v.eqv w = true ↔ Alike v w := by
  constructor
  · intro h
    unfold Val.eqv at h
    split at h
    · exact .inr (.inl rfl)
    · exact .inr (.inr (.inl rfl))
    · rcases (Item.eqv_iff _ _).mp h with rfl | rfl | rfl
      · exact .inl rfl
      · exact .inr (.inl rfl)
      · exact .inr (.inr (.inl rfl))
    · exact .inr (.inr (.inr ⟨_, _, rfl, rfl, (eqvL_iff _ _).mp h⟩))
    · exact .inl (of_decide_eq_true h)
  · rintro (rfl | rfl | rfl | ⟨as, bs, rfl, rfl, h⟩)
    · exact v.eqv_refl
    · unfold Val.eqv; rfl
    · unfold Val.eqv; split <;> simp_all
    · exact (eqvL_iff as bs).mpr h

/-- **When registering an adapter fails**, which is what `C95_exact` asks of it: exactly if a type is missing or still an abstract
member, or if an adapter from the same type was registered whose provided type is alike, but none with the very same types. -/
theorem C95_register (reg : List Entry) (get : String → Option Val) (id : Nat) :
    (register reg get id).isSome = true ↔
      ∃ e p, get "_expects" = some e ∧ (∀ k, e ≠ .static k) ∧ get "_provides" = some p ∧ (∀ k, p ≠ .static k) ∧
        ((∃ x ∈ reg, x.expects = e ∧ Alike x.provides p) → ∃ x ∈ reg, x.expects = e ∧ x.provides = p) := by
  have ht : ∀ m v, typeOf get m = some v ↔ get m = some v ∧ ∀ k, v ≠ .static k := by
    intro m v
    unfold typeOf
    cases h : get m with
    | none => simp
    | some x =>
      cases x <;> simp
      all_goals (rintro rfl; simp)
  have hf : ∀ e p, (find reg e p).isSome = true ↔ ∃ x ∈ reg, x.expects = e ∧ x.provides = p := by
    intro e p
    unfold find
    rw [Option.isSome_map, List.find?_isSome]
    simp
  have ha : ∀ e p, reg.any (fun x => decide (x.expects = e) && x.provides.eqv p) = true ↔
      ∃ x ∈ reg, x.expects = e ∧ Alike x.provides p := by
    intro e p
    rw [List.any_eq_true]
    simp only [Bool.and_eq_true, decide_eq_true_eq, Val.eqv_iff]
  constructor
  · intro h
    unfold register at h
    split at h
    · rename_i e p he hp
      obtain ⟨he1, he2⟩ := (ht _ _).mp he
      obtain ⟨hp1, hp2⟩ := (ht _ _).mp hp
      refine ⟨e, p, he1, he2, hp1, hp2, fun hx => ?_⟩
      rw [if_pos ((ha e p).mpr hx)] at h
      rw [← hf]
      by_contra hc
      rw [if_neg hc] at h
      simp at h
    · simp at h
  · rintro ⟨e, p, he1, he2, hp1, hp2, h⟩
    unfold register
    rw [(ht _ _).mpr ⟨he1, he2⟩, (ht _ _).mpr ⟨hp1, hp2⟩]
    simp only
    split
    · rename_i hx
      rw [if_pos ((hf e p).mpr (h ((ha e p).mp hx)))]
      rfl
    · rfl

/-- With an adapter to `ANY` in place no other can be registered, and with any other in place none to `ANY`. -/
example : Alike (.one .any) (.one (.cls 3)) ∧ Alike (.many [.cls 1, .cls 2]) (.many [.cls 1, .any]) ∧
    ¬ Alike (.one (.cls 3)) (.one (.cls 4)) :=
  ⟨.inr (.inl rfl), (Val.eqv_iff _ _).mp (by decide), fun h => absurd ((Val.eqv_iff _ _).mpr h) (by decide)⟩

/-- **What has been found is found again**, whatever classes are made afterwards. -/
theorem C95_registry_stays (evs : List Ev) (ss : List Stmt) (e p : Val) (i : Nat)
    (h : find (run evs).registry e p = some i) : find (run (evs ++ ss.map .stmt)).registry e p = some i := by
  have keep : ∀ (w : World) (s : Stmt), ∃ l, (exec w s).1.registry = w.registry ++ l := by
    intro w s
    have hreg : ∀ {reg get id reg'}, register reg get id = some reg' → ∃ l, reg' = reg ++ l := by
      intro reg get id reg' h
      obtain ⟨e, p, -, -, (⟨rfl, -⟩ | ⟨rfl, -⟩)⟩ := register_some h
      · exact ⟨[], by simp⟩
      · exact ⟨_, rfl⟩
    have hcb : ∀ (bs : List Cls) (ns get id missing valid reg),
        ∃ l, (checkBases ns get id bs missing valid reg).1 = reg ++ l := by
      intro bs
      induction bs with
      | nil => intro ns get id missing valid reg; exact ⟨[], by simp [checkBases]⟩
      | cons b bs ih =>
        intro ns get id missing valid reg
        rw [checkBases_cons]
        split
        · split
          · exact ⟨[], by simp⟩
          · split
            · split
              · exact ⟨[], by simp⟩
              · rename_i hr
                obtain ⟨l1, rfl⟩ := hreg hr
                obtain ⟨l2, h2⟩ := ih ns get id _ _ (reg ++ l1)
                exact ⟨l1 ++ l2, by rw [h2, List.append_assoc]⟩
            · exact ih ..
        · exact ih ..
    unfold exec
    cases s.bases.mapM w.get with
    | none => exact ⟨[], by simp⟩
    | some bs =>
      dsimp only
      cases linearise w.next s.bases (bs.map Cls.mro) with
      | none => exact ⟨[], by simp⟩
      | some mro =>
        dsimp only
        split
        · split
          · obtain ⟨l, hl⟩ := hcb bs (addNs w.ns w.next s.body) (look (addNs w.ns w.next s.body) mro) w.next
              (ownStatics s.body) [] w.registry
            generalize checkBases (addNs w.ns w.next s.body) (look (addNs w.ns w.next s.body) mro) w.next bs
              (ownStatics s.body) [] w.registry = q at hl
            obtain ⟨reg, r⟩ := q
            cases r with
            | error e => exact ⟨l, hl⟩
            | ok missing =>
              dsimp only
              split <;> exact ⟨l, hl⟩
          · exact ⟨[], by simp⟩
        · exact ⟨[], by simp⟩
  have main : ∀ (ss : List Stmt) (w : World), find w.registry e p = some i →
      find ((ss.map Ev.stmt).foldl step w).registry e p = some i := by
    intro ss
    induction ss with
    | nil => intro w h; exact h
    | cons s ss ih =>
      intro w h
      refine ih _ ?_
      obtain ⟨l, hl⟩ := keep w s
      show find (exec w s).1.registry e p = some i
      rw [hl, find_append, h]
      rfl
  unfold run
  rw [List.foldl_append]
  exact main ss _ h

/-! ### The classes of the toolkit -/

/-- The types of the toolkit: text, EBU-TT Live documents, EBU-TT-D documents. -/
def tText : Val := .one (.cls 0)
def tLive : Val := .one (.cls 1)
def tD : Val := .one (.cls 2)
def method : Val := .one .junk

/-- The node classes (node/interface.py:8-91, node/base.py:12-147, node/delay.py:17-22, node/consumer.py:14-19, 71-80): `INode`, `IProducerNode`,
`IConsumerNode`, `__AbstractNode`, `AbstractProducerNode`, `AbstractConsumerNode`, `AbstractCombinedNode`,
`RetimingDelayNode`, `SimpleConsumer`, `ReSequencer`. -/
def nodeClasses : List Stmt :=
  [ ⟨[], [("process_document", .absMethod)], true, false⟩,
    ⟨[0], [("_provides", .static .typesOnly), ("resume_producing", .absMethod), ("producer_carriage", .absMethod),
      ("register_producer_carriage", .absMethod)], false, false⟩,
    ⟨[0], [("_expects", .static .typesOnly), ("consumer_carriage", .absMethod),
      ("register_consumer_carriage", .absMethod)], false, false⟩,
    ⟨[0], [("node_id", method)], false, false⟩,
    ⟨[1, 3], [("_producer_carriage", .nothing), ("register_producer_carriage", method), ("producer_carriage", method),
      ("resume_producing", method)], false, false⟩,
    ⟨[2, 3], [("_consumer_carriage", .nothing), ("register_consumer_carriage", method), ("consumer_carriage", method)],
      false, false⟩,
    ⟨[5, 4], [], false, false⟩,
    ⟨[6], [("_expects", tLive), ("_provides", tLive), ("process_document", method)], false, false⟩,
    ⟨[5], [("_expects", tLive), ("process_document", method)], false, false⟩,
    ⟨[4, 8], [("_expects", tLive), ("_provides", tLive), ("process_document", method)], false, false⟩ ]

/-- The data adapters (adapters/base.py:12-83, adapters/document_data.py): the interface, XML to live, XML to D, D to
XML, live to XML, live to D. -/
def adapterClasses : List Stmt :=
  [ ⟨[], [("_expects", .static .typesOnly), ("_provides", .static .typesOnly), ("convert_data", .absMethod)], true, true⟩,
    ⟨[0], [("_expects", tText), ("_provides", tLive), ("convert_data", method)], false, false⟩,
    ⟨[0], [("_expects", tText), ("_provides", tD), ("convert_data", method)], false, false⟩,
    ⟨[0], [("_expects", tD), ("_provides", tText), ("convert_data", method)], false, false⟩,
    ⟨[0], [("_expects", tLive), ("_provides", tText), ("convert_data", method)], false, false⟩,
    ⟨[0], [("_expects", tLive), ("_provides", tD), ("convert_data", method)], false, false⟩ ]

/-- A program as events. -/
def prog (ss : List Stmt) : World := run (ss.map .stmt)

/-! ### Examples -/

/-- All these statements work. -/
example : AllWork {} nodeClasses ∧ AllWork {} adapterClasses := by
  refine ⟨?_, ?_⟩ <;> (simp only [nodeClasses, adapterClasses, AllWork]; repeat' constructor)

/-- The order of the bases of the retiming delay node is Python's, and the node can be made. -/
example : ((prog nodeClasses).get 7).map (fun c => (c.mro, c.instantiable))
    = some ([7, 6, 5, 2, 4, 1, 3, 0], true) := by decide +kernel

/-- The retiming delay node and the resequencer say what they expect and provide. -/
example : ((prog nodeClasses).get 9).bind (fun c => (prog nodeClasses).value c "_provides") = some tLive := by
  decide +kernel

/-- Each adapter of the toolkit is found. -/
example : find (prog adapterClasses).registry tText tLive = some 1 ∧ find (prog adapterClasses).registry tLive tD = some 5
    ∧ find (prog adapterClasses).registry tD tLive = none := by decide +kernel

/-- The hypotheses of `C95_bases_partial` are met by an adapter, whose base requires two members. -/
example : ∃ c, (run (adapterClasses.map .stmt)).get 1 = some c ∧ c.auto = true ∧ c.abstracts = [] ∧ c.bases = [0] ∧
    (run (adapterClasses.map .stmt)).requires 0 "_expects" .typesOnly := by
  refine ⟨⟨1, [0], [1, 0], true, [], [], false, false⟩, ?_⟩
  unfold World.requires
  decide +kernel

/-- An abstract adapter that hands the requirements on, and an adapter derived from it. -/
def handing : List Stmt := adapterClasses.take 1 ++
  [ ⟨[0], [("_expects", .static .typesOnly), ("_provides", .static .typesOnly)], false, false⟩,
    ⟨[1], [("_expects", tD), ("_provides", tLive), ("convert_data", method)], false, false⟩ ]

/-- The hypotheses of `C95_handed_on_partial` are met by it. -/
example : HandsOn (run (handing.map .stmt)) ∧ ((run (handing.map .stmt)).get 2).map (fun c => (c.auto, c.abstracts, c.mro))
    = some (true, [], [2, 1, 0]) ∧ (run (handing.map .stmt)).requires 0 "_provides" .typesOnly := by
  refine ⟨?_, by decide +kernel, by unfold World.requires; decide +kernel⟩
  intro i c hc hx m k hv
  have hcl : (run (handing.map .stmt)).classes =
      [⟨0, [], [0], true, ["convert_data"], ["_expects", "_provides"], true, true⟩,
       ⟨1, [0], [1, 0], true, ["convert_data"], ["_expects", "_provides"], false, false⟩,
       ⟨2, [1], [2, 1, 0], true, [], [], false, false⟩] := by decide +kernel
  have hid := (run_inv _ i c hc).id
  have hm : c ∈ (run (handing.map .stmt)).classes := List.mem_of_find?_eq_some hc
  rw [hcl] at hm
  have h0 : (run (handing.map .stmt)).ns 0
      = [("_expects", .static .typesOnly), ("_provides", .static .typesOnly), ("convert_data", .absMethod)] := by
    decide +kernel
  have h1 : (run (handing.map .stmt)).ns 1 = [("_expects", .static .typesOnly), ("_provides", .static .typesOnly)] := by
    decide +kernel
  simp only [List.mem_cons, List.not_mem_nil, or_false] at hm
  rcases hm with rfl | rfl | rfl
  · obtain ⟨o, ho, hom, hol⟩ := look_some hv
    simp only [List.mem_singleton] at hom
    subst hom; subst hid
    exact ⟨rfl, k, hol⟩
  · obtain ⟨o, ho, hom, hol⟩ := look_some hv
    simp only [List.mem_cons, List.not_mem_nil, or_false] at hom
    subst hid
    refine ⟨rfl, ?_⟩
    rcases hom with rfl | rfl
    · exact ⟨k, hol⟩
    · rw [h0] at hol
      unfold World.requires
      rw [h1]
      by_cases e1 : m = "_expects"
      · subst e1; exact ⟨.typesOnly, by decide⟩
      · by_cases e2 : m = "_provides"
        · subst e2; exact ⟨.typesOnly, by decide⟩
        · exfalso
          simp only [List.lookup, beq_eq_false_iff_ne.mpr e1, beq_eq_false_iff_ne.mpr e2] at hol
          split at hol <;> simp at hol
  · rcases hx with h | h
    · cases h
    · exact absurd rfl h

/-- An adapter without `_provides` is refused. -/
example : (exec (prog adapterClasses) ⟨[0], [("_expects", tD), ("convert_data", method)], false, false⟩).2.toBool
    = false := by decide +kernel

/-- Its registry does not change later (`C95_registry_stays`): a second adapter for the same types is ignored. -/
example : find (prog (adapterClasses ++
    [⟨[0], [("_expects", tText), ("_provides", tLive), ("convert_data", method)], false, false⟩])).registry tText tLive
    = some 1 := by decide +kernel

/-! ### What is false -/

/-- **False as stated: a node need not say what it expects.**  A node class derived from the toolkit's
`AbstractCombinedNode` (class 6) that defines `process_document` only is made and can be instantiated, although
`_expects` and `_provides` are required by the interfaces; both are still the declaration, so that `expects()` and
`provides()` raise `TypeError` when the node is to be connected. -/
theorem C95_false : ∃ c, (prog (nodeClasses ++ [⟨[6], [("process_document", method)], false, false⟩])).get 10 = some c ∧
    c.instantiable = true ∧
    let w := prog (nodeClasses ++ [⟨[6], [("process_document", method)], false, false⟩])
    2 ∈ c.mro ∧ w.requires 2 "_expects" .typesOnly ∧ w.value c "_expects" = some (.static .typesOnly) ∧
    typeOf (w.value c) "_expects" = none ∧ typeOf (w.value c) "_provides" = none := by
  refine ⟨⟨10, [6], [10, 6, 5, 2, 4, 1, 3, 0], true, [], [], false, false⟩, ?_⟩
  unfold World.requires
  decide +kernel

/-- Nor need it be a type: the check of the interface is never made for nodes derived from the abstract ones. -/
theorem C95_false_not_a_type : ∃ c,
    (prog (nodeClasses ++ [⟨[6], [("process_document", method), ("_expects", .one .junk)], false, false⟩])).get 10
      = some c ∧ c.instantiable = true ∧
    (prog (nodeClasses ++ [⟨[6], [("process_document", method), ("_expects", .one .junk)], false, false⟩])).value c
      "_expects" = some (.one .junk) ∧ ¬ Passes .typesOnly (.one .junk) := by
  refine ⟨⟨10, [6], [10, 6, 5, 2, 4, 1, 3, 0], true, [], [], false, false⟩, ?_⟩
  rw [← accepts_iff]
  decide +kernel

/-- **An adapter derived from another class than the interface is not found**, here one derived from an abstract
adapter (class 6) that adds nothing: the abstract class gets an `auto_register_impl` that does nothing. -/
theorem C95_false_derived_adapter :
    let w := prog (adapterClasses ++ [⟨[0], [], false, false⟩,
      ⟨[6], [("_expects", tD), ("_provides", tLive), ("convert_data", method)], false, false⟩])
    w.classes.length = 8 ∧ find w.registry tD tLive = none := by decide +kernel

/-- **After a class statement that failed** the class that was never made is found until garbage is collected; the
corrected class is ignored, and is not found afterwards either. -/
theorem C95_false_failed_statement :
    let wrong : Stmt := ⟨[0], [("_expects", tD), ("_provides", tLive), ("convert_data", method),
      ("_more", .static .defined)], false, false⟩
    let right : Stmt := ⟨[0], [("_expects", tD), ("_provides", tLive), ("convert_data", method)], false, false⟩
    let evs : List Ev := adapterClasses.map .stmt ++ [.stmt wrong, .stmt right]
    find (run evs).registry tD tLive = some 6 ∧ (run evs).get 6 = none ∧ ((run evs).get 7).isSome = true ∧
    find (run (evs ++ [.collect])).registry tD tLive = none := by decide +kernel

/-- An adapter that provides `ANY` makes every later adapter from the same type a `KeyError`. -/
theorem C95_false_any :
    let w := prog (adapterClasses.take 1 ++ [⟨[0], [("_expects", tD), ("_provides", .one .any), ("convert_data", method)],
      false, false⟩])
    (find w.registry tD (.one .any)).isSome = true ∧
    (exec w ⟨[0], [("_expects", tD), ("_provides", tText), ("convert_data", method)], false, false⟩).2.toBool = false := by
  decide +kernel

end Verif.Abc
