import Verif.Abc.Inv
/-
Lemmas about the registry of adapters.
-/
namespace Verif.Abc

theorem Item.eqv_refl (i : Item) : i.eqv i = true := by cases i <;> simp [Item.eqv]

theorem eqvL_refl : ∀ is : List Item, eqvL is is = true
  | [] => rfl
  | i :: is => by rw [eqvL, i.eqv_refl, eqvL_refl is]; rfl

theorem Val.eqv_refl (v : Val) : v.eqv v = true := by
  cases v with
  | one i => cases i <;> simp [Val.eqv, Item.eqv]
  | many is => simp [Val.eqv, eqvL_refl]
  | _ => simp [Val.eqv]

theorem find_append (r1 r2 e p) : find (r1 ++ r2) e p = (find r1 e p).or (find r2 e p) := by
  unfold find
  rw [List.find?_append]
  cases r1.find? (fun x => decide (x.expects = e ∧ x.provides = p)) <;> simp

/-- What registering does. -/
theorem register_some {reg get id reg'} (h : register reg get id = some reg') :
    ∃ e p, typeOf get "_expects" = some e ∧ typeOf get "_provides" = some p ∧
      ((reg' = reg ∧ (find reg e p).isSome = true) ∨ (reg' = reg ++ [⟨e, p, id⟩] ∧ find reg e p = none)) := by
  unfold register at h
  cases he : typeOf get "_expects" with
  | none => simp [he] at h
  | some e =>
    cases hp : typeOf get "_provides" with
    | none => simp [he, hp] at h
    | some p =>
      simp only [he, hp] at h
      refine ⟨e, p, rfl, rfl, ?_⟩
      by_cases ha : (reg.any (fun x => decide (x.expects = e) && x.provides.eqv p)) = true
      · rw [if_pos ha] at h
        by_cases hf : (find reg e p).isSome = true
        · rw [if_pos hf] at h
          exact Or.inl ⟨(Option.some.inj h).symm, hf⟩
        · rw [if_neg hf] at h; cases h
      · rw [if_neg ha] at h
        refine Or.inr ⟨(Option.some.inj h).symm, ?_⟩
        unfold find
        rw [Option.map_eq_none_iff, List.find?_eq_none]
        intro x hx hm
        simp only [decide_eq_true_eq] at hm
        apply ha
        rw [List.any_eq_true]
        exact ⟨x, hx, by rw [hm.1, hm.2, Val.eqv_refl]; simp⟩

theorem register_again {reg get id reg'} (h : register reg get id = some reg') :
    register reg' get id = some reg' := by
  obtain ⟨e, p, he, hp, hc⟩ := register_some h
  have hf : (find reg' e p).isSome = true := by
    rcases hc with ⟨rfl, hf⟩ | ⟨rfl, hf⟩
    · exact hf
    · rw [find_append, hf]; simp [find]
  unfold register
  simp only [he, hp]
  rw [if_pos, if_pos hf]
  rw [List.any_eq_true]
  unfold find at hf
  rw [Option.isSome_map, List.find?_isSome] at hf
  obtain ⟨x, hx, hm⟩ := hf
  simp only [decide_eq_true_eq] at hm
  exact ⟨x, hx, by rw [hm.1, hm.2, Val.eqv_refl]; simp⟩

/-- What the loop over the bases registers. -/
theorem checkBases_reg {ns get id} : ∀ {bs missing valid reg reg' out},
    checkBases ns get id bs missing valid reg = (reg', .ok out) →
    (bs.any (fun b => b.auto && b.hook) = true → register reg get id = some reg') ∧
    (bs.any (fun b => b.auto && b.hook) = false → reg' = reg)
  | [], missing, valid, reg, reg', out, h => by
    simp only [checkBases, Prod.mk.injEq] at h
    simp [h.1]
  | b :: bs, missing, valid, reg, reg', out, h => by
    rcases checkBases_step h with ⟨ha, h'⟩ | ⟨ha, m', v', r1, hc, h1, h2, h'⟩
    · have := checkBases_reg h'
      simpa [ha] using this
    · have ih := checkBases_reg h'
      cases hh : b.hook with
      | false =>
        rw [h2 hh] at ih
        simpa [ha, hh] using ih
      | true =>
        have hr := h1 hh
        refine ⟨fun _ => ?_, by simp [ha, hh]⟩
        cases hb : bs.any (fun b => b.auto && b.hook) with
        | false => rw [ih.2 hb]; exact hr
        | true =>
          have := ih.1 hb
          rw [register_again hr] at this
          rw [hr, this]

/-- Does class `c` present itself as an adapter from `e` to `p`?  It is not abstract, one of its own bases has an
`auto_register_impl` of its own, and its types are `e` and `p`. -/
def offers (w : World) (e p : Val) (c : Cls) : Bool :=
  c.auto && c.abstracts.isEmpty &&
    c.bases.any (fun j => match w.get j with | some b => b.auto && b.hook | none => false) &&
    decide (typeOf (look w.ns c.mro) "_expects" = some e) && decide (typeOf (look w.ns c.mro) "_provides" = some p)

theorem offers_add {w : World} (hi : Inv w) {i c} (hg : w.get i = some c) {n body reg} (e p) :
    offers (w.add n body reg) e p c = offers w e p c := by
  have h := hi i c hg
  have hlt := h.lt
  have hlook : ∀ m, look (w.add n body reg).ns c.mro m = look w.ns c.mro m := fun m =>
    look_congr (fun x hx => addNs_old (by have := h.le x hx; omega))
  have hlook' : look (w.add n body reg).ns c.mro = look w.ns c.mro := funext hlook
  unfold offers
  rw [hlook']
  congr 3
  rw [Bool.eq_iff_iff, List.any_eq_true, List.any_eq_true]
  constructor
  · rintro ⟨j, hj, hm⟩
    obtain ⟨b, hb, -, -⟩ := h.sub j hj
    rw [get_add_old hb] at hm
    exact ⟨j, hj, by rw [hb]; exact hm⟩
  · rintro ⟨j, hj, hm⟩
    obtain ⟨b, hb, -, -⟩ := h.sub j hj
    rw [hb] at hm
    exact ⟨j, hj, by rw [get_add_old hb]; exact hm⟩

/-! ### Executing a class statement -/

/-- A class statement either fails, and leaves the classes and namespaces as they were, or adds a class. -/
theorem exec_cases (w : World) (s : Stmt) :
    (∃ reg err, exec w s = ({ w with next := w.next + 1, registry := reg }, .error err)) ∨
    (∃ c reg bs mro, exec w s = (w.add c s.body reg, .ok c) ∧ s.bases.mapM w.get = some bs ∧
      linearise w.next s.bases (bs.map Cls.mro) = some mro ∧ c.id = w.next ∧ c.bases = s.bases ∧ c.mro = mro ∧
      c.auto = (s.names || bs.any Cls.auto) ∧
      (c.auto = true → c.abstracts = abstractsOf (look (addNs w.ns w.next s.body) mro) s.body bs ∧
        c.hook = s.hook ∧ c.iface = s.names) ∧
      (c.auto = true → c.abstracts = [] →
        checkBases (addNs w.ns w.next s.body) (look (addNs w.ns w.next s.body) mro) w.next bs (ownStatics s.body) []
          w.registry = (reg, .ok [])) ∧
      (c.auto = false ∨ c.abstracts ≠ [] → reg = w.registry)) := by
  unfold exec
  cases hbs : s.bases.mapM w.get with
  | none => exact Or.inl ⟨w.registry, _, rfl⟩
  | some bs =>
    dsimp only
    cases hm : linearise w.next s.bases (bs.map Cls.mro) with
    | none => exact Or.inl ⟨w.registry, _, rfl⟩
    | some mro =>
      dsimp only
      by_cases ha : (s.names || bs.any Cls.auto) = true
      · rw [if_pos ha]
        by_cases hab : (abstractsOf (look (addNs w.ns w.next s.body) mro) s.body bs).isEmpty = true
        · rw [if_pos hab]
          cases hc : checkBases (addNs w.ns w.next s.body) (look (addNs w.ns w.next s.body) mro) w.next bs
              (ownStatics s.body) [] w.registry with
          | mk reg r =>
            cases r with
            | error e => exact Or.inl ⟨reg, _, rfl⟩
            | ok missing =>
              dsimp only
              by_cases hmi : missing.isEmpty = true
              · rw [if_pos hmi]
                have : missing = [] := by simpa using hmi
                subst this
                refine Or.inr ⟨⟨w.next, s.bases, mro, true, _, ownStatics s.body, s.hook, s.names⟩, reg, bs, mro, rfl,
                  rfl, hm, rfl, rfl, rfl, ha.symm, fun _ => ⟨rfl, rfl, rfl⟩, fun _ _ => hc, ?_⟩
                rintro (h | h)
                · cases h
                · exact absurd (by simpa using hab) h
              · rw [if_neg hmi]; exact Or.inl ⟨reg, _, rfl⟩
        · rw [if_neg hab]
          refine Or.inr ⟨⟨w.next, s.bases, mro, true, _, ownStatics s.body, s.hook, s.names⟩, w.registry, bs, mro, rfl,
            rfl, hm, rfl, rfl, rfl, ha.symm, fun _ => ⟨rfl, rfl, rfl⟩, ?_, fun _ => rfl⟩
          intro _ he
          simp only at he
          rw [he] at hab
          exact absurd rfl hab
      · rw [if_neg ha]
        refine Or.inr ⟨⟨w.next, s.bases, mro, false, [], [], false, false⟩, w.registry, bs, mro, rfl,
          rfl, hm, rfl, rfl, rfl, by simpa using ha, ?_, ?_, fun _ => rfl⟩
        · intro h; cases h
        · intro h; cases h

/-- Every class is found under its number. -/
def Uniq (w : World) : Prop := ∀ c ∈ w.classes, w.get c.id = some c

theorem get_add_new {w : World} (hi : Inv w) {c body reg} (hid : c.id = w.next) :
    (w.add c body reg).get c.id = some c := by
  have hn : w.classes.find? (fun b => decide (b.id = c.id)) = none := by
    cases h : w.classes.find? (fun b => decide (b.id = c.id)) with
    | none => rfl
    | some b => exact absurd (get_lt hi h) (by omega)
  unfold World.get World.add
  simp only [List.find?_append, hn, Option.none_or]
  simp

theorem exec_uniq {w : World} (hi : Inv w) (h : Uniq w) (s : Stmt) : Uniq (exec w s).1 := by
  rcases exec_cases w s with ⟨reg, err, he⟩ | ⟨c, reg, bs, mro, he, -, -, hid, -⟩
  · rw [he]; exact h
  · rw [he]
    intro b hb
    rcases List.mem_append.mp (show b ∈ w.classes ++ [c] from hb) with hb | hb
    · exact get_add_old (h b hb)
    · simp only [List.mem_singleton] at hb
      subst hb
      exact get_add_new hi hid

theorem run_uniq (evs : List Ev) : Uniq (run evs) := by
  have : ∀ (evs : List Ev) (w : World), Inv w → Uniq w → Uniq (evs.foldl step w) := by
    intro evs
    induction evs with
    | nil => intro w _ h; exact h
    | cons e evs ih =>
      intro w hi h
      refine ih _ (step_inv hi e) ?_
      cases e with
      | stmt s => exact exec_uniq hi h s
      | collect => exact h
  refine this evs {} ?_ ?_
  · intro i c hc; simp [World.get] at hc
  · intro c hc; simp at hc

/-- The registry holds, for every pair of types, the first class that offers it. -/
def FirstHeld (w : World) : Prop :=
  ∀ e p, find w.registry e p = (w.classes.find? (offers w e p)).map Cls.id

theorem find_congr' {α} {f g : α → Bool} : ∀ {l : List α}, (∀ x ∈ l, f x = g x) → l.find? f = l.find? g
  | [], _ => rfl
  | a :: l, h => by
    rw [List.find?_cons, List.find?_cons, h a (by simp), find_congr' (fun x hx => h x (by simp [hx]))]

theorem exec_firstHeld {w : World} (hi : Inv w) (hu : Uniq w) (h : FirstHeld w) (s : Stmt)
    (hok : ∃ c, (exec w s).2 = .ok c) : FirstHeld (exec w s).1 := by
  rcases exec_cases w s with ⟨reg, err, he⟩ | ⟨c, reg, bs, mro, he, hbs, hm, hid, hb, hmro, hau, hab, hck, hreg⟩
  · obtain ⟨c, hc⟩ := hok
    rw [he] at hc; cases hc
  · rw [he]
    intro e p
    show find reg e p = ((w.classes ++ [c]).find? (offers (w.add c s.body reg) e p)).map Cls.id
    rw [List.find?_append]
    have hold : w.classes.find? (offers (w.add c s.body reg) e p) = w.classes.find? (offers w e p) :=
      find_congr' (fun b hb => offers_add hi (hu b hb) e p)
    rw [hold]
    have hsplit : ((w.classes.find? (offers w e p)).or ([c].find? (offers (w.add c s.body reg) e p))).map Cls.id
        = ((w.classes.find? (offers w e p)).map Cls.id).or
          (if offers (w.add c s.body reg) e p c = true then some w.next else none) := by
      cases w.classes.find? (offers w e p) with
      | some b => rfl
      | none =>
        rw [List.find?_singleton]
        by_cases ho : offers (w.add c s.body reg) e p c = true
        · simp [ho, hid]
        · simp [ho]
    rw [hsplit, ← h e p]
    have hf := mapM_get hbs
    have hbase : c.bases.any (fun j => match (w.add c s.body reg).get j with
        | some b => b.auto && b.hook | none => false) = bs.any (fun b => b.auto && b.hook) := by
      rw [hb, Bool.eq_iff_iff, List.any_eq_true, List.any_eq_true]
      constructor
      · rintro ⟨j, hj, hx⟩
        obtain ⟨b, hbm, hg⟩ := forall2_left hf j hj
        rw [get_add_old hg] at hx
        exact ⟨b, hbm, hx⟩
      · rintro ⟨b, hbm, hx⟩
        obtain ⟨j, hj, hg⟩ := forall2_right hf b hbm
        exact ⟨j, hj, by rw [get_add_old hg]; exact hx⟩
    have hoff : offers (w.add c s.body reg) e p c = (c.auto && c.abstracts.isEmpty &&
        bs.any (fun b => b.auto && b.hook) &&
        decide (typeOf (look (addNs w.ns w.next s.body) mro) "_expects" = some e) &&
        decide (typeOf (look (addNs w.ns w.next s.body) mro) "_provides" = some p)) := by
      unfold offers
      rw [hbase, hmro]
      rfl
    by_cases hc1 : c.auto = true ∧ c.abstracts = []
    · have hcb := checkBases_reg (hck hc1.1 hc1.2)
      cases hh : bs.any (fun b => b.auto && b.hook) with
      | false =>
        rw [hoff, hh, hcb.2 hh]
        simp
      | true =>
        obtain ⟨e0, p0, h1, h2, h3⟩ := register_some (hcb.1 hh)
        have hoff' : offers (w.add c s.body reg) e p c = decide (e0 = e ∧ p0 = p) := by
          rw [hoff, hh, h1, h2, hc1.1, hc1.2]
          simp
        rw [hoff']
        rcases h3 with ⟨hr, hs⟩ | ⟨hr, hs⟩
        · rw [hr]
          by_cases hx : e0 = e ∧ p0 = p
          · obtain ⟨rfl, rfl⟩ := hx
            obtain ⟨v, hv⟩ := Option.isSome_iff_exists.mp hs
            simp [hv]
          · simp [hx]
        · rw [hr, find_append]
          congr 1
          by_cases hx : e0 = e ∧ p0 = p
          · simp [find, hx]
          · simp [find, hx]
    · have hr := hreg (by
        cases hx : c.auto with
        | false => exact Or.inl rfl
        | true => exact Or.inr (fun h => hc1 ⟨hx, h⟩))
      have : offers (w.add c s.body reg) e p c = false := by
        rw [hoff]
        cases hx : c.auto with
        | false => simp
        | true =>
          have : c.abstracts.isEmpty = false := by
            cases hab : c.abstracts with
            | nil => exact absurd ⟨hx, hab⟩ hc1
            | cons _ _ => rfl
          simp [this]
      rw [this, hr]
      simp

/-! ### When the loop over the bases ends well -/

theorem checkMembers_ok {get check} : ∀ {ms missing valid},
    (∀ m ∈ ms, m ∈ valid ∨ ∃ v, get m = some v ∧ v.settled = true ∧ accepts (check m) v = true) →
    ∃ valid', checkMembers get check ms missing valid = some (missing, valid') ∧
      ∀ x, x ∈ valid' ↔ (x ∈ valid ∨ x ∈ ms)
  | [], missing, valid, _ => ⟨valid, rfl, by simp⟩
  | m :: ms, missing, valid, h => by
    rw [checkMembers]
    by_cases hv : m ∈ valid
    · rw [if_pos hv]
      obtain ⟨v', h1, h2⟩ := checkMembers_ok (missing := missing)
        (fun x hx => h x (List.mem_cons_of_mem _ hx))
      refine ⟨v', h1, fun x => ?_⟩
      rw [h2 x]
      constructor
      · rintro (h | h)
        · exact Or.inl h
        · exact Or.inr (List.mem_cons_of_mem _ h)
      · rintro (h | h)
        · exact Or.inl h
        · rcases List.mem_cons.mp h with rfl | h
          · exact Or.inl hv
          · exact Or.inr h
    · rw [if_neg hv]
      obtain ⟨v, hg, hs, ha⟩ := (h m (by simp)).resolve_left hv
      obtain ⟨v', h1, h2⟩ := checkMembers_ok (get := get) (check := check) (ms := ms) (missing := missing)
        (valid := m :: valid) (fun x hx => (h x (List.mem_cons_of_mem _ hx)).imp (List.mem_cons_of_mem _) id)
      refine ⟨v', ?_, fun x => ?_⟩
      · rw [hg]
        cases v with
        | static k => simp [Val.settled] at hs
        | notImpl => simp [Val.settled] at hs
        | _ => simp only [ha, if_true]; exact h1
      · rw [h2 x, List.mem_cons, List.mem_cons]
        constructor
        · rintro ((h | h) | h)
          · exact Or.inr (Or.inl h)
          · exact Or.inl h
          · exact Or.inr (Or.inr h)
        · rintro (h | h | h)
          · exact Or.inl (Or.inr h)
          · exact Or.inl (Or.inl h)
          · exact Or.inr h

theorem checkBases_ok {ns get id} : ∀ {bs valid reg},
    (∀ pre b post m, bs = pre ++ b :: post → b.auto = true → m ∈ b.statics → m ∉ valid →
      (∀ d ∈ pre, d.auto = true → m ∉ d.statics) →
      ∃ v, get m = some v ∧ v.settled = true ∧ accepts (checkOf ns b.id m) v = true) →
    (bs.any (fun b => b.auto && b.hook) = true → (register reg get id).isSome = true) →
    ∃ reg', checkBases ns get id bs [] valid reg = (reg', .ok [])
  | [], valid, reg, _, _ => ⟨reg, rfl⟩
  | b :: bs, valid, reg, h, hr => by
    rw [checkBases_cons]
    cases ha : b.auto with
    | false =>
      rw [if_neg (by simp)]
      refine checkBases_ok ?_ ?_
      · intro pre c post m hsp hca hm hv hpre
        refine h (b :: pre) c post m (by rw [hsp]; rfl) hca hm hv ?_
        intro d hd hda
        rcases List.mem_cons.mp hd with rfl | hd
        · rw [ha] at hda; cases hda
        · exact hpre d hd hda
      · intro hx
        exact hr (by rw [List.any_cons, ha, hx]; rfl)
    | true =>
      rw [if_pos rfl]
      obtain ⟨v', h1, h2⟩ := checkMembers_ok (get := get) (check := checkOf ns b.id) (ms := b.statics) (missing := [])
        (valid := valid) (fun m hm => by
          by_cases hv : m ∈ valid
          · exact Or.inl hv
          · exact Or.inr (h [] b bs m rfl ha hm hv (fun d hd => absurd hd List.not_mem_nil)))
      rw [h1]
      have hrest : ∀ pre c post m, bs = pre ++ c :: post → c.auto = true → m ∈ c.statics → m ∉ v' →
          (∀ d ∈ pre, d.auto = true → m ∉ d.statics) →
          ∃ v, get m = some v ∧ v.settled = true ∧ accepts (checkOf ns c.id m) v = true := by
        intro pre c post m hsp hca hm hv hpre
        refine h (b :: pre) c post m (by rw [hsp]; rfl) hca hm (fun hx => hv ((h2 m).mpr (Or.inl hx))) ?_
        intro d hd hda
        rcases List.mem_cons.mp hd with rfl | hd
        · exact fun hx => hv ((h2 m).mpr (Or.inr hx))
        · exact hpre d hd hda
      dsimp only
      cases hh : b.hook with
      | false =>
        rw [if_neg (by simp)]
        exact checkBases_ok hrest (fun hx => hr (by rw [List.any_cons, hx]; simp))
      | true =>
        rw [if_pos rfl]
        obtain ⟨r1, hr1⟩ := Option.isSome_iff_exists.mp (hr (by rw [List.any_cons, ha, hh]; rfl))
        rw [hr1]
        exact checkBases_ok hrest (fun _ => by rw [register_again hr1]; rfl)

end Verif.Abc
