/-!
# Outcomes of C functions

`ok a`   : the function returned `a`;
`abort`  : an `arax_assert`/`arax_abort` fired (/repo/src/utils/arax_assert.h:7-8; both are unconditional,
           they are not compiled out by `NDEBUG`);
`ub`     : undefined behaviour in the C/C++ sense (access outside an object, dangling iterator, …).
The three are never identified with one another.
-/
namespace Arax

/-- How a call ends. /repo/src/utils/arax_assert.h:7-8. -/
inductive Res (α : Type) where
  | ok (a : α)
  | abort
  | ub
  deriving Repr, DecidableEq

namespace Res

/-- Sequencing: an abort or undefined behaviour ends the call. (No code of its own.) -/
def bind {α β : Type} (r : Res α) (f : α → Res β) : Res β :=
  match r with
  | ok a => f a
  | abort => abort
  | ub => ub

/-- Applying a pure function to the returned value. (No code of its own.) -/
def map {α β : Type} (f : α → β) (r : Res α) : Res β :=
  match r with
  | ok a => ok (f a)
  | abort => abort
  | ub => ub

instance : Monad Res where
  pure := Res.ok
  bind := Res.bind

@[simp] theorem bind_ok {α β : Type} (a : α) (f : α → Res β) : (Res.ok a >>= f) = f a := rfl
@[simp] theorem bind_abort {α β : Type} (f : α → Res β) : ((Res.abort : Res α) >>= f) = Res.abort := rfl
@[simp] theorem bind_ub {α β : Type} (f : α → Res β) : ((Res.ub : Res α) >>= f) = Res.ub := rfl
@[simp] theorem pure_eq {α : Type} (a : α) : (pure a : Res α) = Res.ok a := rfl

end Res
end Arax
