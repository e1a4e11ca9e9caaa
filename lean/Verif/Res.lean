/-
Outcome monad, bounds-checked arrays and loop combinators used by every model.
-/

namespace Verif

/-- Outcome of a modelled C++ call.
`ub`: undefined behaviour (out-of-bounds access, `back()` of an empty vector, ...),
`exn`: a C++ exception or a failed `assert`,
`nofuel`: a loop did not finish within the fuel given to the model. -/
inductive Res (α : Type _) where
  | ok (a : α)
  | ub
  | exn
  | nofuel
deriving DecidableEq, Repr

namespace Res

/-- Sequencing: anything but `ok` aborts the computation. -/
@[inline] protected def bind {α β : Type _} (x : Res α) (f : α → Res β) : Res β :=
  match x with
  | ok a => f a
  | ub => ub
  | exn => exn
  | nofuel => nofuel

instance : Monad Res where
  pure := ok
  bind := Res.bind

/-- Weakest precondition: the computation succeeds and the result satisfies `Q`. -/
def wp {α : Type _} (x : Res α) (Q : α → Prop) : Prop :=
  match x with
  | ok a => Q a
  | _ => False

@[simp] theorem wp_ok {α : Type _} (a : α) (Q : α → Prop) : wp (ok a) Q = Q a := rfl
@[simp] theorem wp_pure {α : Type _} (a : α) (Q : α → Prop) : wp (pure a) Q = Q a := rfl
@[simp] theorem wp_ub {α : Type _} (Q : α → Prop) : wp (ub : Res α) Q = False := rfl
@[simp] theorem wp_exn {α : Type _} (Q : α → Prop) : wp (exn : Res α) Q = False := rfl
@[simp] theorem wp_nofuel {α : Type _} (Q : α → Prop) : wp (nofuel : Res α) Q = False := rfl

@[simp] theorem wp_bind {α β : Type _} (x : Res α) (f : α → Res β) (Q : β → Prop) :
    wp (x >>= f) Q = wp x (fun a => wp (f a) Q) := by
  cases x <;> rfl

theorem wp_iff {α : Type _} {x : Res α} {Q : α → Prop} :
    wp x Q ↔ ∃ a, x = ok a ∧ Q a := by
  cases x <;> simp

theorem wp_mono {α : Type _} {x : Res α} {Q R : α → Prop} (h : wp x Q)
    (hi : ∀ a, Q a → R a) : wp x R := by
  cases x <;> simp_all

theorem wp_and {α : Type _} {x : Res α} {Q R : α → Prop} (h : wp x Q) (h' : wp x R) :
    wp x (fun a => Q a ∧ R a) := by
  cases x <;> simp_all

@[simp] theorem ok_bind {α β : Type _} (a : α) (f : α → Res β) : (ok a >>= f) = f a := rfl
@[simp] theorem pure_eq {α : Type _} (a : α) : (pure a : Res α) = ok a := rfl

@[simp] theorem wp_ite {α : Type _} (c : Prop) [Decidable c] (x y : Res α) (Q : α → Prop) :
    wp (if c then x else y) Q = if c then wp x Q else wp y Q := by
  split <;> rfl

end Res

open Res

/-- `l[i]` with bounds check. -/
def rd {α : Type _} (l : List α) (i : Nat) : Res α :=
  match l[i]? with
  | some a => ok a
  | none => ub

/-- `l[i] = v` with bounds check. -/
def wr {α : Type _} (l : List α) (i : Nat) (v : α) : Res (List α) :=
  if i < l.length then ok (l.set i v) else ub

/-- `l[i]` with a possibly negative index. -/
def rdZ {α : Type _} (l : List α) (i : Int) : Res α :=
  if i < 0 then ub else rd l i.toNat

/-- `l[i] = v` with a possibly negative index. -/
def wrZ {α : Type _} (l : List α) (i : Int) (v : α) : Res (List α) :=
  if i < 0 then ub else wr l i.toNat v

/-- `std::vector::back()`. -/
def back {α : Type _} (l : List α) : Res α :=
  match l.getLast? with
  | some a => ok a
  | none => ub

/-- `cnt` iterations of a counting loop starting at `lo`. -/
def forN {σ : Type _} : Nat → Nat → (Nat → σ → Res σ) → σ → Res σ
  | 0, _, _, s => ok s
  | c + 1, lo, f, s => f lo s >>= forN c (lo + 1) f

/-- `for (int i = lo; i < hi; ++i) s = f i s;` -/
def forRange {σ : Type _} (lo hi : Nat) (f : Nat → σ → Res σ) (s : σ) : Res σ :=
  forN (hi - lo) lo f s

/-- `for (auto a : l) s = f a s;` -/
def forEach {α σ : Type _} : List α → (α → σ → Res σ) → σ → Res σ
  | [], _, s => ok s
  | a :: l, f, s => f a s >>= forEach l f

/-- `while (cond) body` with at most `fuel` evaluations of the body. -/
def whileF {σ : Type _} : Nat → (σ → Res Bool) → (σ → Res σ) → σ → Res σ
  | 0, cond, _, s => cond s >>= fun b => if b then nofuel else ok s
  | k + 1, cond, body, s =>
      cond s >>= fun b => if b then body s >>= whileF k cond body else ok s

/-- A loop whose body decides whether to leave it (`break`/`return`) with a result. -/
inductive Ctl (σ ρ : Type _) where
  | next (s : σ)
  | brk (r : ρ)
deriving DecidableEq, Repr

/-- `for (int i = lo; ...; ++i)` with `break`; ends with `next` if it ran to the end. -/
def forNB {σ ρ : Type _} : Nat → Nat → (Nat → σ → Res (Ctl σ ρ)) → σ → Res (Ctl σ ρ)
  | 0, _, _, s => ok (.next s)
  | c + 1, lo, f, s => f lo s >>= fun r =>
      match r with
      | .next s' => forNB c (lo + 1) f s'
      | .brk r => ok (.brk r)

/-- `for (int i = lo; i < hi; ++i)` with `break`. -/
def forRangeB {σ ρ : Type _} (lo hi : Nat) (f : Nat → σ → Res (Ctl σ ρ)) (s : σ) :
    Res (Ctl σ ρ) :=
  forNB (hi - lo) lo f s

/-- `while (true)` left by `brk`. -/
def loopF {σ ρ : Type _} : Nat → (σ → Res (Ctl σ ρ)) → σ → Res ρ
  | 0, _, _ => nofuel
  | k + 1, f, s => f s >>= fun r =>
      match r with
      | .next s' => loopF k f s'
      | .brk r => ok r

end Verif

namespace Verif.Res

/-- Weakest liberal precondition: the computation either runs out of fuel (an incomplete
execution) or succeeds with a result that satisfies `Q`; it never has undefined behaviour. -/
def wpl {α : Type _} (x : Res α) (Q : α → Prop) : Prop :=
  match x with
  | ok a => Q a
  | nofuel => True
  | _ => False

@[simp] theorem wpl_ok {α : Type _} (a : α) (Q : α → Prop) : wpl (ok a) Q = Q a := rfl
@[simp] theorem wpl_nofuel {α : Type _} (Q : α → Prop) : wpl (nofuel : Res α) Q = True := rfl
@[simp] theorem wpl_ub {α : Type _} (Q : α → Prop) : wpl (ub : Res α) Q = False := rfl
@[simp] theorem wpl_exn {α : Type _} (Q : α → Prop) : wpl (exn : Res α) Q = False := rfl

@[simp] theorem wpl_bind {α β : Type _} (x : Res α) (f : α → Res β) (Q : β → Prop) :
    wpl (x >>= f) Q = wpl x (fun a => wpl (f a) Q) := by
  cases x <;> rfl

theorem wpl_mono {α : Type _} {x : Res α} {Q R : α → Prop} (h : wpl x Q)
    (hi : ∀ a, Q a → R a) : wpl x R := by
  cases x <;> simp_all

theorem wpl_of_wp {α : Type _} {x : Res α} {Q : α → Prop} (h : wp x Q) : wpl x Q := by
  cases x <;> simp_all

theorem wpl_iff {α : Type _} {x : Res α} {Q : α → Prop} :
    wpl x Q ↔ x = nofuel ∨ ∃ a, x = ok a ∧ Q a := by
  cases x <;> simp

end Verif.Res
