import Verif.World.Manager
/-!
# Rules for programs that run alone

`wpm` separates success from errors and excludes panics and endless loops.
-/
set_option autoImplicit false
namespace Verif
open M TS Json

section
variable {α β : Type} {E : Env} {f : Faults} {I : Disk → Prop}

/-- `R` after success, `F` after an error, and nothing else happens. -/
def Post (R : α → Disk → Prop) (F : CErr → Disk → Prop) : Res CErr α → Disk → Prop
  | .ok a, d => R a d
  | .err e, d => F e d
  | .panic, _ => False
  | .diverge, _ => False

/-- From `d`: `I` after every call, `R` after success, `F` after an error; no panic, no endless loop. -/
def wpm (E : Env) (f : Faults) (I : Disk → Prop) (x : M α) (R : α → Disk → Prop) (F : CErr → Disk → Prop) (d : Disk) : Prop :=
  wp E f I x (Post R F) d

theorem wpm_bind {x : M α} {g : α → M β} {R : β → Disk → Prop} {F : CErr → Disk → Prop} {d : Disk}
    (h : wpm E f I x (fun a d' => wpm E f I (g a) R F d') F d) : wpm E f I (x >>= g) R F d := by
  refine wp_bind.2 (wp_mono h fun r d' hr => ?_)
  cases r with
  | ok a => exact hr
  | err e => exact hr
  | panic => exact hr.elim
  | diverge => exact hr.elim

theorem wpm_mono {x : M α} {R R' : α → Disk → Prop} {F F' : CErr → Disk → Prop} {d : Disk} (h : wpm E f I x R F d)
    (hr : ∀ a d', R a d' → R' a d') (hf : ∀ e d', F e d' → F' e d') : wpm E f I x R' F' d := by
  refine wp_mono h fun r d' hx => ?_
  cases r with
  | ok a => exact hr a d' hx
  | err e => exact hf e d' hx
  | panic => exact hx.elim
  | diverge => exact hx.elim

theorem wp_monoI {p : Prog α} {Q : α → Disk → Prop} {I' : Disk → Prop} {d : Disk} (h : wp E f I p Q d) (hi : ∀ d', I d' → I' d') :
    wp E f I' p Q d := by
  induction p generalizing d with
  | ret a => exact h
  | op c k ih => exact fun x d' hs => ⟨hi _ (h x d' hs).1, ih x (h x d' hs).2⟩

theorem wpm_weaken {x : M α} {R R' : α → Disk → Prop} {F F' : CErr → Disk → Prop} {I' : Disk → Prop} {d : Disk} (h : wpm E f I x R F d)
    (hi : ∀ d', I d' → I' d') (hr : ∀ a d', R a d' → R' a d') (hf : ∀ e d', F e d' → F' e d') : wpm E f I' x R' F' d :=
  wp_monoI (wpm_mono h hr hf) hi

theorem wpm_pure {a : α} {R : α → Disk → Prop} {F : CErr → Disk → Prop} {d : Disk} (h : R a d) : wpm E f I (Pure.pure a : M α) R F d := h

theorem wpm_fail {e : CErr} {R : α → Disk → Prop} {F : CErr → Disk → Prop} {d : Disk} (h : F e d) : wpm E f I (M.fail e : M α) R F d := h

theorem wpm_lift_ok {ε : Type} {g : ε → CErr} {a : α} {r : Res ε α} {R : α → Disk → Prop} {F : CErr → Disk → Prop} {d : Disk} (hr : r = .ok a)
    (h : R a d) : wpm E f I (M.lift g r) R F d := by subst hr; exact h

theorem wpm_lift_err {ε : Type} {g : ε → CErr} {e : ε} {r : Res ε α} {R : α → Disk → Prop} {F : CErr → Disk → Prop} {d : Disk}
    (hr : r = .err e) (h : F (g e) d) : wpm E f I (M.lift g r) R F d := by subst hr; exact h

theorem wpm_ask {c : Cmd} {R : c.Ans → Disk → Prop} {F : CErr → Disk → Prop} {d : Disk} (h : ∀ x d', Step E f c d x d' → I d' ∧ R x d') :
    wpm E f I (M.ask c) R F d := fun x d' hs => ⟨(h x d' hs).1, (h x d' hs).2⟩

theorem wpm_need {b : Bool} {e : CErr} {R : Unit → Disk → Prop} {F : CErr → Disk → Prop} {d : Disk} (h : b = true → R () d)
    (h' : b = false → F e d) : wpm E f I (M.need b e) R F d := by
  cases b with
  | true => exact h rfl
  | false => exact h' rfl

/-- A call with a test of its answer. -/
theorem wpm_must {c : Cmd} {g : c.Ans → Bool} {e : CErr} {m : Unit → M β} {R : β → Disk → Prop} {F : CErr → Disk → Prop} {d : Disk}
    (h : ∀ x d', Step E f c d x d' → I d' ∧ (g x = true → wpm E f I (m ()) R F d') ∧ (g x = false → F e d')) :
    wpm E f I (M.ask c >>= fun x => M.need (g x) e >>= m) R F d :=
  wpm_bind (wpm_ask fun x d' hs => ⟨(h x d' hs).1, wpm_bind (wpm_need (h x d' hs).2.1 (h x d' hs).2.2)⟩)

/-- A call and then the rest. -/
theorem wpm_call {c : Cmd} {m : c.Ans → M β} {R : β → Disk → Prop} {F : CErr → Disk → Prop} {d : Disk}
    (h : ∀ x d', Step E f c d x d' → I d' ∧ wpm E f I (m x) R F d') : wpm E f I (M.ask c >>= m) R F d :=
  wpm_bind (wpm_ask h)

/-- What a run gives. -/
theorem wpm_exec {x : M α} {R : α → Disk → Prop} {F : CErr → Disk → Prop} {d d' : Disk} {r : Res CErr α} (h : wpm E f I x R F d)
    (he : Exec E f x d r d') : Post R F r d' := wp_exec h he

theorem wpm_exec_ok {x : M α} {R : α → Disk → Prop} {F : CErr → Disk → Prop} {d d' : Disk} {a : α} (h : wpm E f I x R F d)
    (he : Exec E f x d (.ok a) d') : R a d' := wpm_exec h he

theorem wpm_exec_err {x : M α} {R : α → Disk → Prop} {F : CErr → Disk → Prop} {d d' : Disk} {e : CErr} (h : wpm E f I x R F d)
    (he : Exec E f x d (.err e) d') : F e d' := wpm_exec h he

end
end Verif
