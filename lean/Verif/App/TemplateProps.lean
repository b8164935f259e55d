import Verif.App.Model

/-!
# Templates in a configuration

C67: the text a template stands for.
-/
namespace Verif.App

/-- Specification: a template is made of literal text and variables. -/
inductive Piece where
  | lit (l : List Char)
  | var (name : List Char)

/-- How a piece is written in a configuration. -/
def Piece.written : Piece → List Char
  | .lit l => l
  | .var n => '*' :: '*' :: n ++ ['*', '*']

/-- What a piece stands for: itself, or the value of the variable; `none` if there is no such variable. -/
def Piece.meant (value : List Char → Option (List Char)) : Piece → Option (List Char)
  | .lit l => some l
  | .var n => value n

/-- No asterisks in literal text or names; no line breaks in names. -/
def Piece.Ok : Piece → Prop
  | .lit l => '*' ∉ l
  | .var n => '*' ∉ n ∧ '\n' ∉ n

/-- What the pieces stand for, one after another; `none` if one of them stands for nothing. -/
def meaning (value : List Char → Option (List Char)) : List Piece → Option (List Char)
  | [] => some []
  | p :: ps =>
    match p.meant value, meaning value ps with
    | some a, some b => some (a ++ b)
    | _, _ => none

theorem upToStars_name : ∀ (n rest : List Char), '*' ∉ n → '\n' ∉ n → upToStars (n ++ '*' :: '*' :: rest) = some (n, rest)
  | [], rest, _, _ => rfl
  | c :: n, rest, h, h' => by
    simp only [List.mem_cons, not_or] at h h'
    have hc : ¬ c = '*' := fun e => h.1 e.symm
    have hn : ¬ c = '\n' := fun e => h'.1 e.symm
    rw [List.cons_append, upToStars, upToStars_name n rest h.2 h'.2]
    · simp [hn]
    · intro r hr; exact absurd hr hc

theorem dropStars_name : ∀ (n rest : List Char), '*' ∉ n → dropStars (n ++ rest) = n ++ dropStars rest
  | [], rest, _ => rfl
  | c :: n, rest, h => by
    simp only [List.mem_cons, not_or] at h
    have hc : ¬ c = '*' := fun e => h.1 e.symm
    rw [List.cons_append, dropStars, dropStars_name n rest h.2]
    · rfl
    · intro r hr; exact absurd hr hc

theorem resolve_lit (value : List Char → Option (List Char)) :
    ∀ (l rest : List Char) (fuel : Nat), '*' ∉ l → (l ++ rest).length ≤ fuel →
      ∃ fuel', rest.length ≤ fuel' ∧ resolve value fuel (l ++ rest) = (resolve value fuel' rest).map (l ++ ·)
  | [], rest, fuel, _, hf => ⟨fuel, hf, by simp⟩
  | c :: l, rest, fuel, h, hf => by
    simp only [List.mem_cons, not_or] at h
    have hc : ¬ c = '*' := fun e => h.1 e.symm
    cases fuel with
    | zero => simp at hf
    | succ fuel =>
      obtain ⟨fuel', h1, h2⟩ := resolve_lit value l rest fuel h.2 (by simpa using hf)
      refine ⟨fuel', h1, ?_⟩
      rw [List.cons_append, resolve, h2]
      · cases resolve value fuel' rest <;> simp
      · intro r hr; exact absurd hr hc

/-- **C67.** A configured text made of literal parts and variables between double asterisks resolves to the
literal parts as they are, with each variable replaced by its value, in order; it fails exactly if one of the
variables has no value. -/
theorem C67_resolves (value : List Char → Option (List Char)) (ps : List Piece) (hok : ∀ p ∈ ps, p.Ok) (fuel : Nat)
    (hf : (ps.flatMap Piece.written).length ≤ fuel) :
    resolve value fuel (ps.flatMap Piece.written) = meaning value ps := by
  induction ps generalizing fuel with
  | nil => cases fuel <;> rfl
  | cons p ps ih =>
    have ih' := fun fuel => ih (fun q hq => hok q (List.mem_cons_of_mem _ hq)) fuel
    have hp := hok p List.mem_cons_self
    rw [List.flatMap_cons] at hf ⊢
    cases p with
    | lit l =>
      obtain ⟨fuel', h1, h2⟩ := resolve_lit value l _ fuel hp hf
      simp only [Piece.written, meaning, Piece.meant]
      rw [h2, ih' fuel' h1]
      cases meaning value ps <;> rfl
    | var n =>
      cases fuel with
      | zero => simp [Piece.written] at hf
      | succ fuel =>
        simp only [Piece.written, meaning, Piece.meant, List.cons_append, List.append_assoc, List.nil_append]
        rw [resolve, upToStars_name n _ hp.1 hp.2]
        have hd : dropStars ('*' :: '*' :: n ++ ['*', '*']) = n := by
          rw [List.cons_append, List.cons_append, dropStars, dropStars_name n _ hp.1]
          simp [dropStars]
        simp only [hd]
        cases value n with
        | none => rfl
        | some r =>
          simp only
          have hl : (Piece.var n).written.length = n.length + 4 := by simp [Piece.written]
          rw [List.length_append] at hf
          rw [ih' fuel (by omega)]
          cases meaning value ps <;> rfl

/-- The hypotheses are met by a template with two variables and text around them. -/
example : (∀ p ∈ [Piece.lit "ws://".toList, .var "host".toList, .lit ":".toList, .var "port".toList], p.Ok) ∧
    resolve (fun n => if n = "host".toList then some "localhost".toList else if n = "port".toList then some "9000".toList else none) 99
      "ws://**host**:**port**".toList = some "ws://localhost:9000".toList := by
  refine ⟨?_, by decide⟩
  intro p hp
  simp only [List.mem_cons, List.not_mem_nil, or_false] at hp
  rcases hp with rfl | rfl | rfl | rfl <;> simp [Piece.Ok]

/-- An unknown variable. -/
example : resolve (fun _ => none) 99 "a**b**c".toList = none := by decide

end Verif.App
