import Verif.Props.Serial
import Verif.Props.Examples
import Verif.World.Total
/-!
# Concrete cases for C79

In the workspace `/w` a commit runs. While it runs another user makes a new workspace at `/v`: `init` looks at its path, then the whole
commit runs, then the rest of `init`.
-/
set_option autoImplicit false
namespace Verif
open M TS Json

namespace Story

/-- While one program is run to its end the others wait. -/
theorem together_exec {ι α : Type} [DecidableEq ι] {F : ι → Env} {ps : ι → Prog α} {d : Disk} {p : Prog α} {i : ι} {e e' : Disk} {a : α} (hx : Exec (F i) Faults.none p e a e') :
    ∀ qs : ι → Prog α, Together F ps d qs e → qs i = p → Together F ps d (upd qs i (.ret a)) e' := by
  induction hx with
  | ret a e =>
    intro qs h hp
    have : upd qs i (.ret a) = qs := by
      funext j
      by_cases hj : j = i
      · rw [hj, hp]; simp [upd]
      · simp [upd, hj]
    rwa [this]
  | op hs _ ih =>
    intro qs h hp
    have h1 := ih _ (.step h hp hs) (by simp [upd])
    have h2 : ∀ (x y : Prog α), upd (upd qs i x) i y = upd qs i y := fun x y => by
      funext j
      by_cases hj : j = i <;> simp [upd, hj]
    rwa [h2] at h1

/-- The commit in `/w` and the other user's `init /v`. -/
def both : Bool → Command
  | true => .commit cw ci
  | false => .init (lit "/v") (lit "main")

/-- The users. -/
def who : Bool → Nat
  | true => 0
  | false => 1000

theorem two_separate {d : Disk} {w : OpenWs} {u root : UID} (h : Begun d w u root) : Separate E0 d both fun _ => w := by
  refine ⟨?_, ?_, ?_, ?_⟩
  · rintro (_ | _) cwd path hx
    · cases hx
    · cases hx
      exact ⟨outw, h.live.gets⟩
  · rintro (_ | _) t ht
    · cases ht
      refine ⟨off_of_outside (absv ▸ outv), fun n hn => ?_⟩
      rw [h.free _ (by decide)] at hn
      cases hn
    · cases ht
  · rintro (_ | _) (_ | _) hij hi hj
    · exact absurd rfl hij
    · exact absurd rfl hi
    · exact absurd rfl hj
    · exact absurd rfl hij
  · have hv : ∀ p, (both false).At p → p = lit "/v" := by
      rintro p (⟨_, _, hx, _⟩ | hx)
      · cases hx
      · exact (Option.some.inj hx).symm
    have hw : ∀ p, (both true).At p → p = lit "/w" := by
      rintro p (⟨_, _, hx, rfl⟩ | hx)
      · cases hx; exact absw
      · cases hx
    rintro (_ | _) (_ | _) hij p hi hj
    · exact hij rfl
    · exact absurd ((hv p hi).symm.trans (hw p hj)) (by decide)
    · exact absurd ((hv p hj).symm.trans (hw p hi)) (by decide)
    · exact hij rfl

/-- For `C79_serial` and `C79_answers`: the two commands overlap and come to their ends. `init` finds nothing at its path, the
whole commit runs, then the rest of `init`. -/
theorem two_together : ∃ d w u root, Begun d w u root ∧ ∃ (r : Bool → Res CErr Out) (e : Disk),
    Together (fun i => E0.as (who i)) (fun i => (both i).prog (E0.as (who i))) d (fun i => .ret (r i)) e := by
  obtain ⟨d, w, u, root, hB⟩ := begun
  have := hB.used
  have hd : Draws ((both false).prog (E0.as (who false))) 5 := draws_seq (m := 0) (initCmd_draws _ _ _) fun _ => .ret
  have hc : Draws ((both true).prog (E0.as (who true))) 2 := draws_seq (m := 0) (commitCmd_draws _ _ _) fun _ => .ret
  obtain ⟨k, hp⟩ : ∃ k, (both false).prog (E0.as (who false)) = .op (.exists_ (lit "/v")) k := ⟨_, rfl⟩
  obtain ⟨v, hv⟩ := fresh_exists d.used (by omega)
  obtain ⟨x, d', hs⟩ := step_total (E0.as (who false)) Faults.none (.exists_ (lit "/v")) d ⟨v, Or.inl hv⟩
  have hd' := (step_used hs).2 (fun h => by cases h)
  have h1 := Together.step (F := fun i => E0.as (who i)) (i := false) .refl (ps := fun i => (both i).prog (E0.as (who i))) (d := d) hp hs
  obtain ⟨r1, d1, e1⟩ := exec_total (E := E0.as (who true)) (f := Faults.none) hc d' (by rw [hd']; omega)
  have h2 := together_exec (i := true) e1 _ h1 rfl
  have hk : Draws (k x) 5 := by
    rw [hp] at hd
    cases hd with
    | op _ h => exact h x
  have hl := exec_used hc e1
  rw [hd'] at hl
  obtain ⟨r0, d2, e0⟩ := exec_total (E := E0.as (who false)) (f := Faults.none) hk d1 (by omega)
  have h3 := together_exec (i := false) e0 _ h2 (by simp [upd])
  refine ⟨d, w, u, root, hB, fun | true => r1 | false => r0, d2, ?_⟩
  have hq : ∀ qs : Bool → Prog (Res CErr Out), qs = (fun i => .ret ((fun | true => r1 | false => r0 : Bool → Res CErr Out) i)) →
      Together (fun i => E0.as (who i)) (fun i => (both i).prog (E0.as (who i))) d qs d2 →
      Together (fun i => E0.as (who i)) (fun i => (both i).prog (E0.as (who i))) d (fun i => .ret ((fun | true => r1 | false => r0 : Bool → Res CErr Out) i)) d2 := fun _ h => h ▸ _root_.id
  refine hq _ ?_ h3
  funext i
  cases i <;> simp [upd]

/-- For `C79_killed`, `C79_serial` and `C79_answers`. -/
example : ∃ (d e e' : Disk) (r : Bool → Res CErr Out), Reachable E0 d ∧
    Together (fun i => E0.as (who i)) (fun i => (both i).prog (E0.as (who i))) d (fun i => .ret (r i)) e ∧
    Serially (fun i => E0.as (who i)) (fun i => (both i).prog (E0.as (who i))) r [true, false] d e' ∧ Same e e' := by
  obtain ⟨d, w, u, root, hB, r, e, ht⟩ := two_together
  obtain ⟨e', h1, h2⟩ := C79_serial hB.live.past.reachable (two_separate hB) ht (order := [true, false]) (by decide) (by decide)
  exact ⟨d, e, e', r, hB.live.past.reachable, ht, h1, h2⟩

end Story
end Verif
