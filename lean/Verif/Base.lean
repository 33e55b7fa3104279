import Mathlib.Data.List.Forall2
/-!
# Outcomes of API calls

Every modelled function that can throw or run into undefined behaviour returns
an `Outcome`.  `ub` stands for undefined behaviour of the C++ code (out-of-range
raw pointer access, Eigen assertion that is compiled out, failed `assert`).
-/

namespace Stag

/-- The C++ exception classes thrown in `stag_lib` (`std::invalid_argument`,
`std::domain_error`, `std::runtime_error`, `std::out_of_range`). -/
inductive Exn where
  | invalidArgument
  | domainError
  | runtimeError
  | outOfRange
  deriving DecidableEq, Repr

/-- Result of a call: a value, a thrown exception, or undefined behaviour. -/
inductive Outcome (α : Type) where
  | ok (a : α)
  | throw (e : Exn)
  | ub
  deriving DecidableEq, Repr

namespace Outcome

/-- Sequencing: exceptions and undefined behaviour propagate. -/
def bind {α β : Type} : Outcome α → (α → Outcome β) → Outcome β
  | ok a, f => f a
  | throw e, _ => throw e
  | ub, _ => ub

instance : Monad Outcome where
  pure := ok
  bind := bind

@[simp] theorem pure_def {α : Type} (a : α) : (pure a : Outcome α) = ok a := rfl
@[simp] theorem bind_ok {α β : Type} (a : α) (f : α → Outcome β) :
    (ok a >>= f) = f a := rfl
@[simp] theorem bind_throw {α β : Type} (e : Exn) (f : α → Outcome β) :
    (throw e >>= f) = throw e := rfl
@[simp] theorem bind_ub {α β : Type} (f : α → Outcome β) :
    ((ub : Outcome α) >>= f) = ub := rfl

theorem bind_eq_ok {α β : Type} {x : Outcome α} {f : α → Outcome β} {b : β} :
    (x >>= f) = ok b ↔ ∃ a, x = ok a ∧ f a = ok b := by
  cases x <;> simp

/-- `try { x } catch (from) { throw to }`. -/
def rethrow {α : Type} (x : Outcome α) (src dst : Exn) : Outcome α :=
  match x with
  | throw e => if e = src then throw dst else throw e
  | y => y

/-- Run a list of calls in order, collecting the results (a `for` loop with
`push_back`). -/
def mapM' {α β : Type} (f : α → Outcome β) : List α → Outcome (List β)
  | [] => ok []
  | a :: l => do
    let b ← f a
    let bs ← mapM' f l
    ok (b :: bs)

theorem mapM'_eq_ok {α β : Type} {f : α → Outcome β} {l : List α} {bs : List β} :
    mapM' f l = ok bs ↔ List.Forall₂ (fun a b => f a = ok b) l bs := by
  induction l generalizing bs with
  | nil =>
    constructor
    · intro h; cases h; exact .nil
    · intro h; cases h; rfl
  | cons a l ih =>
    simp only [mapM', bind_eq_ok]
    constructor
    · rintro ⟨b, hb, bs', hbs, h⟩
      cases h
      exact .cons hb (ih.1 hbs)
    · intro h
      cases h with
      | cons hb hbs => exact ⟨_, hb, _, ih.2 hbs, rfl⟩

theorem mapM'_total {α β : Type} {f : α → Outcome β} (g : α → β) {l : List α}
    (h : ∀ a ∈ l, f a = ok (g a)) : mapM' f l = ok (l.map g) := by
  induction l with
  | nil => rfl
  | cons a l ih =>
    simp only [mapM', h a (by simp), bind_ok, ih (fun b hb => h b (by simp [hb])), List.map_cons]

/-- The first call that throws decides. -/
theorem mapM'_first_throw {α β : Type} {f : α → Outcome β} {e : Exn} {pre post : List α} {a : α}
    (hpre : ∀ x ∈ pre, ∃ b, f x = ok b) (ha : f a = throw e) :
    mapM' f (pre ++ a :: post) = throw e := by
  induction pre with
  | nil => simp only [List.nil_append, mapM', ha, bind_throw]
  | cons x pre ih =>
    obtain ⟨b, hb⟩ := hpre x (by simp)
    simp only [List.cons_append, mapM', hb, bind_ok, ih (fun y hy => hpre y (by simp [hy])),
      bind_throw]

theorem mapM'_map {α β γ : Type} {f : β → Outcome γ} (g : α → β) (l : List α) :
    mapM' f (l.map g) = mapM' (fun a => f (g a)) l := by
  induction l with
  | nil => rfl
  | cons a l ih => simp only [List.map_cons, mapM', ih]

theorem rethrow_ok {α : Type} (a : α) (s d : Exn) : (ok a).rethrow s d = ok a := rfl

theorem rethrow_eq_ok {α : Type} {x : Outcome α} {a : α} {s d : Exn} :
    x.rethrow s d = ok a ↔ x = ok a := by
  cases x with
  | ok b => simp [rethrow]
  | throw e => simp only [rethrow]; split <;> simp
  | ub => simp [rethrow]

end Outcome
end Stag
