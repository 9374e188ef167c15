import Verif.Props.UidPanic
import Verif.Props.Examples
import Verif.Props.LogWorld
/-!
# Which names crash the program (C05, C14, C26, C57)

The exact set of references on which `Search` (pkg/spaces/trees/tree.go:158-184, pkg/workspaces/workspace.go:345-363) crashes, and that a command with such a reference
does crash.
-/
set_option autoImplicit false
namespace Verif
open M TS Json

/-- **C14 (violated).** `Search` crashes on exactly the keys on which the base32 decoder does (`C05_violated_exactly` lists them), whatever the
tree is. -/
theorem C14_violated_exactly (s : TS) (key : Str) : (s.search key : Res Empty (Option (Ref × KeyType))) = .panic ↔ UID.decodeBase32 key = .panic := by
  constructor
  · intro h
    refine Classical.not_not.1 fun hk => ?_
    obtain ⟨x, hx⟩ := searchID_plain hk
    unfold TS.search at h
    rw [hx] at h
    simp only [Res.bind] at h
    split at h
    · cases h
    · split at h
      · cases h
      · split at h <;> cases h
  · intro h
    unfold TS.search
    rw [searchID_odd (Classical.not_not.2 h)]
    rfl

/-- **C26.** The same for `Search` of a workspace. -/
theorem C26_search_crashes_iff {s : TS} (hw : WF s) {w : Ws} {u p : UID} (hh : w.HeadAt s u p) (ref : Str) :
    (w.search s ref : Res Empty (Option (Option Ref × KeyType))) = .panic ↔ UID.decodeBase32 ref = .panic := by
  constructor
  · intro h
    refine Classical.not_not.1 fun hk => ?_
    rcases Ws.search_spec (ε := Empty) hw hh hk with ⟨r, o, k, h1, _⟩ | ⟨h1, _⟩ <;> rw [h1] at h <;> cases h
  · intro h
    exact wsSearch_odd (Classical.not_not.2 h)

section
variable {E : Env} {f : Faults}

/-- **C57 (violated).** In a workspace that opens, a checkout of such a name crashes. It has changed nothing. -/
theorem C57_violated_checkout {d d' : Disk} (hd : Reachable E d) {cwd key : Str} (hout : E.Outside (Path.abs cwd (lit "."))) {w : OpenWs} (hg : Gets E d cwd (lit ".") w)
    (hio : f.io = false) (hk : UID.decodeBase32 key = .panic) {r : Res CErr (OpenWs × OpenWs)} (he : Exec E f (checkoutCmd E cwd key) d r d') : r = .panic ∧ d' = d := by
  obtain ⟨g, hs⟩ := steady_reachable hd
  obtain ⟨u, p, T, hF⟩ := found_of_gets hs hout hg
  refine ⟨?_, (checkout_odd (Classical.not_not.2 hk) he).1⟩
  obtain ⟨a, d1, h1, h2⟩ := exec_bind he
  have h3 := wpm_exec (getWorkspace_wp hF.opens) h1
  cases a with
  | ok w' =>
    have hp : checkoutP E w' key = Prog.ret .panic := by
      unfold checkoutP
      rw [wsSearch_odd (Classical.not_not.2 hk)]
      rfl
    obtain ⟨b, d2, h4, h5⟩ := exec_bind h2
    rw [hp] at h4
    cases h4; cases h5; rfl
  | err e => obtain ⟨_, _, h⟩ := h3; rw [hio] at h; cases h
  | panic => exact h3.elim
  | diverge => exact h3.elim

/-- **C57 (violated).** So does adding a branch or a tag at such a name. -/
theorem C57_violated_edit {d d' : Disk} (hd : Reachable E d) {cwd : Str} (hout : E.Outside (Path.abs cwd (lit "."))) {w : OpenWs} (hg : Gets E d cwd (lit ".") w)
    (hio : f.io = false) {name ref : Str} {force : Bool} (hk : UID.decodeBase32 ref = .panic) {e : Edit} (hed : e = .addBranch name ref force ∨ e = .addTag name ref force)
    {r : Res CErr TS} (he : Exec E f (editCmd E cwd [e]) d r d') : r = .panic ∧ d' = d := by
  obtain ⟨g, hs⟩ := steady_reachable hd
  obtain ⟨u, p, T, hF⟩ := found_of_gets hs hout hg
  have hpl : ¬ e.Plain := by rcases hed with rfl | rfl <;> exact fun h => h hk
  obtain ⟨a, d1, h1, h2⟩ := exec_bind he
  have h3 := wpm_exec (getWorkspace_wp hF.opens) h1
  cases a with
  | ok w' =>
    obtain ⟨_, rfl⟩ := h3
    change Exec E f (editAll _ _ [e] _) _ _ _ at h2
    rw [editAll_odd hpl] at h2
    cases h2; exact ⟨rfl, rfl⟩
  | err e => obtain ⟨_, _, h⟩ := h3; rw [hio] at h; cases h
  | panic => exact h3.elim
  | diverge => exact h3.elim

/-- Opening a path whose link leads to such a name crashes. -/
theorem getWorkspace_odd {d d' : Disk} {cwd path t : Str} (hout : E.Outside (Path.abs cwd path)) (hu : d.user (Path.abs cwd path) = .link t)
    (hio : f.io = false) (ht : mountIDOf E.root cwd path (some t) = .panic) {r : Res CErr OpenWs} (he : Exec E f (getWorkspace E cwd path) d r d') :
    r = .panic ∧ d' = d := by
  obtain ⟨a, d1, h1, h2⟩ := exec_bind he
  have h3 := wpm_exec (linkOf_wp (off_of_outside hout)) h1
  cases a with
  | ok l =>
    obtain ⟨rfl, h3⟩ := h3
    rcases h3 with rfl | ⟨h3, _⟩
    · rw [hu, UEnt.target] at h2
      dsimp only at h2
      rw [ht] at h2
      cases h2; exact ⟨rfl, rfl⟩
    · rw [hio] at h3; cases h3
  | err e => obtain ⟨_, _, h⟩ := h3; rw [hio] at h; cases h
  | panic => exact h3.elim
  | diverge => exact h3.elim

/-- **C57 (violated).** Every command that starts by opening a workspace crashes where the path is a link to
`<data root>/mounts/<name>`, or something below, and `name` crashes the decoder. It has changed nothing. -/
theorem C57_violated_link {d d' : Disk} {cwd path t name : Str} {rest : List Str} (hout : E.Outside (Path.abs cwd path))
    (hu : d.user (Path.abs cwd path) = .link t) (hio : f.io = false) (hn : UID.decodeBase32 name = .panic)
    (ht : targetOf cwd path (some t) = Path.comps E.root ++ lit "mounts" :: name :: rest) :
    (∀ ci r, path = lit "." → Exec E f (commitCmd E cwd ci) d r d' → r = .panic ∧ d' = d) ∧
    (∀ key r, path = lit "." → Exec E f (checkoutCmd E cwd key) d r d' → r = .panic ∧ d' = d) ∧
    (∀ es r, path = lit "." → Exec E f (editCmd E cwd es) d r d' → r = .panic ∧ d' = d) ∧
    ∀ target r, Exec E f (cloneCmd E cwd path target) d r d' → r = .panic ∧ d' = d := by
  have hp := (C44_violated_exactly E.root cwd path (some t)).2 ⟨name, rest, ht, hn⟩
  refine ⟨?_, ?_, ?_, ?_⟩
  · rintro ci r rfl he
    obtain ⟨a, d1, h1, h2⟩ := exec_bind he
    obtain ⟨rfl, rfl⟩ := getWorkspace_odd hout hu hio hp h1
    cases h2; exact ⟨rfl, rfl⟩
  · rintro key r rfl he
    obtain ⟨a, d1, h1, h2⟩ := exec_bind he
    obtain ⟨rfl, rfl⟩ := getWorkspace_odd hout hu hio hp h1
    cases h2; exact ⟨rfl, rfl⟩
  · rintro es r rfl he
    obtain ⟨a, d1, h1, h2⟩ := exec_bind he
    obtain ⟨rfl, rfl⟩ := getWorkspace_odd hout hu hio hp h1
    cases h2; exact ⟨rfl, rfl⟩
  · intro target r he
    obtain ⟨a, d1, h1, h2⟩ := exec_bind he
    obtain ⟨rfl, rfl⟩ := getWorkspace_odd hout hu hio hp h1
    cases h2; exact ⟨rfl, rfl⟩

end

namespace Story

/-- A name that crashes the program. -/
def odd : Str := lit "AAAQEAYEAUDAOCAJBIFQYDIOB\n"

/-- `C57_violated_checkout`, `C57_violated_edit`, `C26_search_crashes_iff`: in `/w`. -/
example : ∃ d w, Gets E0 d cw (lit ".") w ∧ (w.ws.search w.tree odd : Res Empty _) = .panic ∧ Exec E0 Faults.none (checkoutCmd E0 cw odd) d .panic d ∧
    Exec E0 Faults.none (editCmd E0 cw [.addTag (lit "v1") odd false]) d .panic d := by
  obtain ⟨d, w, u, root, hB⟩ := begun
  have := hB.used
  obtain ⟨r, d1, h1⟩ := exec_total (E := E0) (f := Faults.none) (checkoutCmd_draws E0 cw odd) d (by omega)
  obtain ⟨r2, d2, h2⟩ := exec_total (E := E0) (f := Faults.none) (editCmd_draws E0 cw [.addTag (lit "v1") odd false]) d (by omega)
  obtain ⟨rfl, rfl⟩ := C57_violated_checkout hB.live.past.reachable outw hB.live.gets rfl C05_violated_newline h1
  obtain ⟨rfl, rfl⟩ := C57_violated_edit hB.live.past.reachable outw hB.live.gets rfl C05_violated_newline (Or.inr rfl) h2
  exact ⟨_, w, hB.live.gets, (C26_search_crashes_iff (wf_of_reach (gets_reach hB.live.past.reachable outw hB.live.gets)) hB.live.opens.head odd).2 C05_violated_newline, h1, h2⟩

/-- `C57_violated_link`: `/w` is a link to a mount with such a name. -/
example : ∃ d : Disk, d.user cw = .link (lit "/d/mounts/" ++ odd) ∧ ∃ d', Exec E0 Faults.none (commitCmd E0 cw ⟨[], []⟩) d .panic d' := by
  obtain ⟨d, w, u, root, hB⟩ := begun
  have := hB.used
  let d2 : Disk := { d with user := fun p => if p = cw then .link (lit "/d/mounts/" ++ odd) else d.user p }
  obtain ⟨r, d1, h1⟩ := exec_total (E := E0) (f := Faults.none) (commitCmd_draws E0 cw ⟨[], []⟩) d2 (by show d.used.length + 2 < _; omega)
  have hc : Path.abs cw (lit ".") = cw := by decide
  have hu : d2.user cw = .link (lit "/d/mounts/" ++ odd) := by simp [d2]
  obtain ⟨rfl, _⟩ := (C57_violated_link (name := odd) (rest := []) outw (hc.symm ▸ hu) rfl
    C05_violated_newline (by decide)).1 _ _ rfl h1
  exact ⟨d2, hu, _, h1⟩

end Story
end Verif
