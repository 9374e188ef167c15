import Verif.Props.Crash
import Verif.Props.Cwd
import Verif.Props.Initial
import Verif.Props.Owner
import Verif.Props.Elsewhere
/-!
# Two data directories (C108)

`--data-root` says where the program keeps its data (pkg/commands/options/global.go:47). Here two data directories are used on one
machine. They have the paths of the user in common, and nothing else: `d1` and `d2` are the data directories, `d1.user = d2.user`.
-/
set_option autoImplicit false
namespace Verif
open M TS Json

/-- `New` (pkg/manager/manager_default.go:33-37): the data directory that `--data-root s` stands for in the working directory `cwd`. -/
def dataRootOf (cwd s : Str) : Str := Path.abs cwd s

/-- Neither data directory keeps its mounts inside those of the other. -/
def Env.Away (E E' : Env) : Prop := ∀ rest rest', Path.comps E.root ++ lit "mounts" :: rest ≠ Path.comps E'.root ++ lit "mounts" :: rest'

/-- The act may change what stands at the path: it is told to make a workspace there, or the user changes it. -/
def Act.Takes : Act → Str → Prop
  | .init p _, q => p = q
  | .clone _ _ p, q => p = q
  | .files _, _ => True
  | _, _ => False

/-- Acts on either data directory, in any order. A restart is one of each. -/
inductive Both (E1 E2 : Env) (f : Faults) (d1 d2 : Disk) : Disk → Disk → Prop where
  | refl : Both E1 E2 f d1 d2 d1 d2
  | one {a b a' : Disk} {x : Act} {o : Nat} : Both E1 E2 f d1 d2 a b → x.Plain E1 → Happens (E1.as o) f x a a' →
      Both E1 E2 f d1 d2 a' { b with user := a'.user }
  | two {a b b' : Disk} {x : Act} {o : Nat} : Both E1 E2 f d1 d2 a b → x.Plain E2 → Happens (E2.as o) f x b b' →
      Both E1 E2 f d1 d2 { a with user := b'.user } b'

section
variable {E E1 E2 : Env} {f : Faults}

theorem away_symm (h : E1.Away E2) : E2.Away E1 := fun r r' e => h r' r e.symm

/-- A path that is not below the mounts of the data directory leads to no mount. -/
theorem mountIDOf_away {root cwd path : Str} {link : Option Str} (h : ∀ rest, targetOf cwd path link ≠ Path.comps root ++ lit "mounts" :: rest) :
    ∃ e, mountIDOf root cwd path link = .err e := by
  rw [mountIDOf_eq]
  rcases Path.relComps_head (Path.comps root ++ [lit "mounts"]) (targetOf cwd path link) with ⟨x, rest, h1, _⟩ | ⟨_, rest, h2⟩
  · exact absurd (by rw [h1]; simp) (h (x :: rest))
  · rcases h2 with h2 | h2 <;> rw [h2, List.headD_cons] <;> exact ⟨_, rfl⟩

/-- Opening a path that leads to no mount. -/
theorem getWorkspace_away {d d' : Disk} {cwd path : Str} (hout : E.Outside (Path.abs cwd path))
    (ht : ∀ t, d.user (Path.abs cwd path) = .link t → ∀ rest, targetOf cwd path (some t) ≠ Path.comps E.root ++ lit "mounts" :: rest)
    {r : Res CErr OpenWs} (he : Exec E f (getWorkspace E cwd path) d r d') : (∃ e, r = .err e) ∧ d' = d := by
  obtain ⟨a, d1, h1, h2⟩ := exec_bind he
  have h3 := wpm_exec (linkOf_wp (off_of_outside hout)) h1
  cases a with
  | ok l =>
    obtain ⟨rfl, h3⟩ := h3
    have hl : ∀ rest, targetOf cwd path l ≠ Path.comps E.root ++ lit "mounts" :: rest := by
      cases l with
      | none => intro rest; rw [targetOf_none]; exact hout rest
      | some t =>
        rcases h3 with h3 | ⟨_, h3⟩
        · refine ht t ?_
          cases hu : d1.user (Path.abs cwd path) <;> rw [hu] at h3 <;> cases h3
          rfl
        · cases h3
    obtain ⟨e, he⟩ := mountIDOf_away hl
    dsimp only at h2
    rw [he] at h2
    cases h2; exact ⟨⟨_, rfl⟩, rfl⟩
  | err e =>
    obtain ⟨rfl, _, _⟩ := h3
    cases h2; exact ⟨⟨_, rfl⟩, rfl⟩
  | panic => exact h3.elim
  | diverge => exact h3.elim

theorem target_abs {cwd path t : Str} (ht : Path.isAbs t = true) : targetOf cwd path (some t) = Path.comps t := by
  simp only [targetOf, if_pos ((isAbs_iff t).1 ht)]

/-- What a path that leads to a mount of one data directory looks like. -/
theorem leads_below {cwd path t : Str} {m : UID} (ht : Path.isAbs t = true) (h : mountIDOf E.root cwd path (some t) = .ok m) :
    ∃ rest, Path.comps t = Path.comps E.root ++ lit "mounts" :: rest := by
  obtain ⟨name, rest, h1, _⟩ := (C44_leads_to_iff _ _ _ _ _).1 h
  rw [target_abs ht] at h1
  exact ⟨name :: rest, h1⟩

/-- A workspace of one data directory is a link that leads to no mount of the other. -/
theorem foreign_link {d : Disk} (hd : Reachable E2 d) (haw : E1.Away E2) {cwd path : Str} (hout : E2.Outside (Path.abs cwd path)) {w : OpenWs}
    (hg : Gets E2 d cwd path w) (habs : ∀ t, d.user (Path.abs cwd path) = .link t → Path.isAbs t = true) :
    ∃ t, d.user (Path.abs cwd path) = .link t ∧ Path.isAbs t = true ∧ mountIDOf E2.root cwd path (some t) = .ok w.mount.id ∧
      ∀ rest, Path.comps t ≠ Path.comps E1.root ++ lit "mounts" :: rest := by
  obtain ⟨g, hs⟩ := steady_reachable hd
  obtain ⟨u, p, T, hF⟩ := found_of_gets hs hout hg
  obtain ⟨t, h1, h2⟩ := hF.opens.link
  refine ⟨t, h1, habs t h1, h2, fun rest e => ?_⟩
  obtain ⟨rest', e'⟩ := leads_below (habs t h1) h2
  exact haw rest rest' (e.symm.trans e')

/-- **C108.** However the data directory is spelled - relative to any working directory, with dots and slashes - it is the same data directory
exactly if the path is the same after cleaning. -/
theorem C108_spelling (cwd cwd' s s' : Str) : dataRootOf cwd s = dataRootOf cwd' s' ↔ targetOf cwd s none = targetOf cwd' s' none := by
  rw [targetOf_none, targetOf_none]
  refine ⟨fun h => congrArg Path.comps h, fun h => ?_⟩
  have key : ∀ cwd s : Str, dataRootOf cwd s = Path.clean (Path.abs cwd s) := by
    intro cwd s
    unfold dataRootOf Path.abs
    split <;> (unfold Path.clean; rw [← Path.clean, Path.comps_clean]; rfl)
  rw [key, key, Path.clean, Path.clean, h]

/-- **C108.** A command with the wrong data directory, in a workspace of another one: it is refused and has changed nothing, whatever is in
its data directory, and even if calls fail. `k` is what the command does with the workspace. -/
theorem C108_refused {d1 d2 d1' : Disk} (hd : Reachable E2 d2) (hu : d1.user = d2.user) (haw : E1.Away E2) {cwd path : Str} (hout1 : E1.Outside (Path.abs cwd path))
    (hout2 : E2.Outside (Path.abs cwd path)) {w : OpenWs} (hg : Gets E2 d2 cwd path w) (habs : ∀ t, d2.user (Path.abs cwd path) = .link t → Path.isAbs t = true) :
    (∀ α (k : OpenWs → M α) r, Exec E1 f (M.bind (getWorkspace E1 cwd path) k) d1 r d1' → (∃ e, r = .err e) ∧ d1' = d1) ∧
    (∀ ci r, path = lit "." → Exec E1 f (commitCmd E1 cwd ci) d1 r d1' → (∃ e, r = .err e) ∧ d1' = d1) ∧
    (∀ key r, path = lit "." → Exec E1 f (checkoutCmd E1 cwd key) d1 r d1' → (∃ e, r = .err e) ∧ d1' = d1) ∧
    (∀ es r, path = lit "." → Exec E1 f (editCmd E1 cwd es) d1 r d1' → (∃ e, r = .err e) ∧ d1' = d1) ∧
    ∀ target r, Exec E1 f (cloneCmd E1 cwd path target) d1 r d1' → (∃ e, r = .err e) ∧ d1' = d1 := by
  obtain ⟨t, h1, h2, _, h4⟩ := foreign_link hd haw hout2 hg habs
  have key : ∀ α (k : OpenWs → M α) r, Exec E1 f (M.bind (getWorkspace E1 cwd path) k) d1 r d1' → (∃ e, r = .err e) ∧ d1' = d1 := by
    intro α k r he
    obtain ⟨a, d, he1, he2⟩ := exec_bind he
    obtain ⟨⟨e, rfl⟩, rfl⟩ := getWorkspace_away hout1 (fun t' e rest => by
      rw [hu, h1] at e
      cases e
      rw [target_abs h2]; exact h4 rest) he1
    cases he2; exact ⟨⟨_, rfl⟩, rfl⟩
  refine ⟨key, ?_, ?_, ?_, fun target r he => key _ _ r he⟩
  · rintro ci r rfl he; exact key _ _ r he
  · rintro k r rfl he; exact key _ _ r he
  · rintro es r rfl he; exact key _ _ r he

/-- What stands at a path after an act that does not take it and whose workspace, if it works in one, is another. -/
theorem happens_user {d d' : Disk} (hd : Reachable E d) {a : Act} (hp : a.Plain E) (h : Happens E f a d d') {q : Str} (ht : ¬ a.Takes q)
    (hq : ∀ cwd w, Path.abs cwd (lit ".") = q → ¬ Gets E d cwd (lit ".") w) : d'.user q = d.user q := by
  obtain ⟨g, hs⟩ := steady_reachable hd
  cases h with
  | init he =>
    rcases wpm_end (initCmd_wp hp) (Or.inl (litter_refl d)) he with hL | ⟨_, _, hM⟩
    · exact congrFun hL.user q
    · exact hM.user q fun e => ht e.symm
  | clone he => exact (C45_clone_partial hd hp.1 hp.2 he).1 q fun e => ht e.symm
  | commit he =>
    rcases run_opens hs hp he with ⟨rfl, _⟩ | ⟨w, u, p, T, hF⟩
    · rfl
    · refine (wpm_end (commitCmd_wp hF.opens hF.mdir) (mid_litter (litter_refl d)) he).user q fun e => ?_
      rw [hF.opens.path] at e
      exact hq _ w e.symm (gets_of_opens hF.opens)
  | @checkout _ key _ _ _ he =>
    rcases run_opens hs hp he with ⟨rfl, _⟩ | ⟨w, u, p, T, hF⟩
    · rfl
    · by_cases hk : PlainKey key
      · refine (wpm_end (checkoutCmd_wp hF.opens hk hF.mdir) (mid_litter (litter_refl d)) he).user q fun e => ?_
        rw [hF.opens.path] at e
        exact hq _ w e.symm (gets_of_opens hF.opens)
      · rw [(checkout_odd hk he).1]
  | edit he =>
    obtain ⟨es1, r1, _, hes, he⟩ := edit_prefix he
    rcases run_opens hs hp he with ⟨rfl, _⟩ | ⟨w, u, p, T, hF⟩
    · rfl
    · rcases wpm_end (editCmd_wp hF.opens hes) (Or.inl rfl) he with rfl | ⟨_, _, _, _, _, _, _, _, _, _, rfl⟩ <;> rfl
  | write hm => unfold Disk.put; split <;> rfl
  | stray _ _ _ => rfl
  | files => exact absurd trivial ht
  | reboot => rfl

/-- **C108.** An act on one data directory leaves every workspace of the other as it is: it opens as before, shows the same files, and all that is
proved of data directories holds of it still. The exceptions are a workspace whose path is given to `init` or `clone`. -/
theorem C108_undisturbed {d1 d2 d1' : Disk} (hd1 : Reachable E1 d1) (hd2 : Reachable E2 d2) (hu : d1.user = d2.user) (haw : E1.Away E2) {a : Act} {o : Nat} (hp : a.Plain E1)
    (h : Happens (E1.as o) f a d1 d1') {cwd path : Str} (hout : E1.Outside (Path.abs cwd path)) (hout2 : E2.Outside (Path.abs cwd path)) (ht : ¬ a.Takes (Path.abs cwd path)) {w : OpenWs}
    (hg : Gets E2 d2 cwd path w) (habs : ∀ t, d2.user (Path.abs cwd path) = .link t → Path.isAbs t = true) :
    Reachable E2 { d2 with user := d1'.user } ∧ Gets E2 { d2 with user := d1'.user } cwd path w ∧ Disk.lists { d2 with user := d1'.user } w = d2.lists w := by
  obtain ⟨t, h1, h2, h3, h4⟩ := foreign_link hd2 haw hout2 hg habs
  have e : d1'.user (Path.abs cwd path) = .link t := by
    rw [happens_user (reachable_as hd1) (plain_as hp) h ht fun cwd' w' e hg' => ?_, hu, h1]
    obtain ⟨g, hs⟩ := steady_reachable (reachable_as (o := o) hd1)
    obtain ⟨_, _, _, hF⟩ := found_of_gets hs (by rw [e]; exact hout) hg'
    obtain ⟨t', e1, e2⟩ := hF.opens.link
    rw [e, hu, h1] at e1
    cases e1
    obtain ⟨rest, e3⟩ := leads_below (E := E1.as o) h2 e2
    exact h4 rest e3
  obtain ⟨g, hs⟩ := steady_reachable hd2
  obtain ⟨u, p, T, hF⟩ := found_of_gets hs hout2 hg
  refine ⟨reachable_files hd2 _, ?_, rfl⟩
  have := gets_of_opens (opens_elsewhere hF.opens h1 h2 hout2 (us := d1'.user) e)
  have ew : w.moveTo (Path.abs cwd path) = w := by
    unfold OpenWs.moveTo
    rw [← hF.opens.path]
  rw [ew] at this
  exact this

/-- **C108.** Whatever is done on two data directories in any order: each of them has the past of a data directory that is alone on the machine, where the
acts on the other are changes of the user's files. So all that is proved of such pasts holds. -/
theorem C108_past {d1 d2 a b : Disk} (hu : d1.user = d2.user) (h : Both E1 E2 f d1 d2 a b) : a.user = b.user ∧ Past E1 f d1 a ∧ Past E2 f d2 b := by
  induction h with
  | refl => exact ⟨hu, .refl, .refl⟩
  | one _ hp hh ih => exact ⟨rfl, .step ih.2.1 hp hh, .step (o := 0) ih.2.2 (a := .files _) trivial .files⟩
  | two _ hp hh ih => exact ⟨rfl, .step (o := 0) ih.2.1 (a := .files _) trivial .files, .step ih.2.2 hp hh⟩

/-- **C108 (violated).** `init` and `clone` do take the path of a workspace of another data directory: if the command succeeds the workspace is not there any more. -/
theorem C108_violated_taken {d1 d2 d1' : Disk} (hd1 : Reachable E1 d1) (hd2 : Reachable E2 d2) (haw : E1.Away E2) {cwd path : Str} (hout : E1.Outside (Path.abs cwd path))
    (hout2 : E2.Outside (Path.abs cwd path)) :
    (∀ branch r, Exec E1 f (initCmd E1 (Path.abs cwd path) branch) d1 (.ok r) d1' → ∀ w, ¬ Gets E2 { d2 with user := d1'.user } cwd path w) ∧
    ∀ cwd' source r, E1.Outside (Path.abs cwd' source) → Exec E1 f (cloneCmd E1 cwd' source (Path.abs cwd path)) d1 (.ok r) d1' →
      ∀ w, ¬ Gets E2 { d2 with user := d1'.user } cwd path w := by
  have key : ∀ (i : UID), d1'.user (Path.abs cwd path) = .link (E1.mountPath i.base32) → ∀ w, ¬ Gets E2 { d2 with user := d1'.user } cwd path w := by
    intro i e w hg
    obtain ⟨t, h1, h2, _, h4⟩ := foreign_link (reachable_files hd2 d1'.user) haw hout2 hg (fun t ht => by
      simp only [e] at ht; cases ht; rfl)
    simp only [e] at h1
    cases h1
    exact h4 _ (comps_mountPath i)
  refine ⟨fun branch r he => ?_, fun cwd' source r ho he => ?_⟩
  · obtain ⟨_, root, u', dp, hFo, hC, _, _, hL⟩ := wpm_exec (initCmd_wp (off_of_outside hout)) he
    refine key r.mount.id ?_
    rw [hL.user, hC.path]; exact upd_self _ _ _
  · obtain ⟨g, hs⟩ := steady_reachable hd1
    rcases run_opens hs ho he with ⟨_, h, _⟩ | ⟨w, u, p, T, hF⟩
    · exact absurd rfl (h r)
    · obtain ⟨u', ls, hC, _, _, _, hL⟩ := wpm_exec (cloneCmd_wp hF.opens (off_of_outside hout)) he
      refine key r.mount.id ?_
      rw [hL.user, hC.path]; exact upd_self _ _ _

/-! ## A run that takes the path

The paths of the user are changed, and the run stays a run of the program. -/

theorem does_user {P : Prop} {d1 d d' : Disk} {a : Bool} {us : Str → UEnt} (h : Does f P d1 d a d') :
    Does f P { d1 with user := us } { d with user := us } a { d' with user := us } := by
  rcases h with ⟨h1, h2, rfl⟩ | ⟨h1, h2, rfl⟩
  · exact Or.inl ⟨h1, h2, rfl⟩
  · exact Or.inr ⟨h1, h2, rfl⟩

theorem tests_user {P : Prop} {d d' : Disk} {a : Bool} {us : Str → UEnt} (h : Tests f P d a d') : Tests f P { d with user := us } a { d' with user := us } := by
  obtain ⟨rfl, h⟩ := h; exact ⟨rfl, h⟩

theorem put_user {d : Disk} {u : UID} {c : Content} {us : Str → UEnt} : Disk.put { d with user := us } u c = { d.put u c with user := us } := by
  unfold Disk.put; dsimp only; split <;> rfl

/-- A call that has nothing to do with the paths of the user and removes no mount. -/
def Cmd.Inner : Cmd → Prop
  | .isSymlink _ | .readlink _ | .exists_ _ | .isEmptyDir _ | .remove _ | .symlink _ _ | .lchown _ | .removeAllMount _ => False
  | _ => True

theorem step_user {c : Cmd} (hc : c.Inner) {d d' : Disk} {a : c.Ans} (h : Step E f c d a d') (us : Str → UEnt) :
    Step E f c { d with user := us } a { d' with user := us } := by
  cases c with
  | rand => obtain ⟨h1, rfl⟩ := h; exact ⟨h1, rfl⟩
  | mkdirSpace n => exact does_user h
  | mkdirLayer n => exact does_user h
  | mkdirDiff n => exact does_user h
  | mkdirMount n => exact does_user h
  | isDirDiff n => exact tests_user h
  | isDirLayer n => exact tests_user h
  | isDirMerged n => exact tests_user h
  | isDirWork n => exact tests_user h
  | mkdirMerged n =>
    rcases h with ⟨h1, m, h2, h3, rfl⟩ | ⟨h1, rfl, h3⟩ | ⟨h1, rfl, h3⟩
    · exact Or.inl ⟨h1, m, h2, h3, rfl⟩
    · exact Or.inr (Or.inl ⟨h1, rfl, h3⟩)
    · exact Or.inr (Or.inr ⟨h1, rfl, h3⟩)
  | mkdirWork n =>
    rcases h with ⟨h1, m, h2, h3, rfl⟩ | ⟨h1, rfl, h3⟩ | ⟨h1, rfl, h3⟩
    · exact Or.inl ⟨h1, m, h2, h3, rfl⟩
    · exact Or.inr (Or.inl ⟨h1, rfl, h3⟩)
    · exact Or.inr (Or.inr ⟨h1, rfl, h3⟩)
  | mountOverlay n u ls => exact does_user h
  | chownMerged n =>
    simp only [Step] at h ⊢
    split at h
    · have := does_user (us := us) h
      rw [← put_user] at this
      exact this
    · split at h
      · exact does_user h
      · obtain ⟨rfl, rfl⟩ := h
        exact ⟨rfl, rfl⟩
  | sys k => exact does_user h
  | umount n =>
    rcases h with ⟨h1, h2, rfl⟩ | ⟨h1, rfl, h2⟩
    · exact Or.inl ⟨h1, h2, rfl⟩
    · exact Or.inr ⟨h1, rfl, h2⟩
  | removeInfo n =>
    rcases h with ⟨h1, h2, rfl⟩ | ⟨h1, h2, rfl⟩ | ⟨h1, h2, rfl⟩
    · exact Or.inl ⟨h1, h2, rfl⟩
    · exact Or.inr (Or.inl ⟨h1, h2, rfl⟩)
    · exact Or.inr (Or.inr ⟨h1, h2, rfl⟩)
  | readInfo n => obtain ⟨rfl, h⟩ := h; exact ⟨rfl, h⟩
  | truncInfo n => exact does_user h
  | writeInfo n b =>
    simp only [Step] at h ⊢
    split at h
    · obtain ⟨rfl, h⟩ := h; exact ⟨rfl, h⟩
    · rcases h with ⟨h1, rfl⟩ | ⟨h1, h2, p, h3, rfl⟩
      · exact Or.inl ⟨h1, rfl⟩
      · exact Or.inr ⟨h1, h2, p, h3, rfl⟩
  | readTree n => obtain ⟨rfl, h⟩ := h; exact ⟨rfl, h⟩
  | truncTree n => exact does_user h
  | writeTree n b =>
    simp only [Step] at h ⊢
    split at h
    · rcases h with ⟨h1, rfl⟩ | ⟨h1, h2, p, h3, rfl⟩
      · exact Or.inl ⟨h1, rfl⟩
      · exact Or.inr ⟨h1, h2, p, h3, rfl⟩
    · obtain ⟨rfl, rfl⟩ := h
      exact ⟨rfl, rfl⟩
  | dump s => obtain ⟨rfl, h⟩ := h; exact ⟨rfl, h⟩
  | _ => exact hc.elim

theorem exec_user {α : Type} {A : Str → Prop} {x : Prog α} (hx : CalmP A x) {d d' : Disk} {a : α} (h : Exec E Faults.none x d a d') {us : Str → UEnt}
    (hus : ∀ q, A q → us q = d.user q) : Exec E Faults.none x { d with user := us } a { d' with user := us } ∧ d'.user = d.user := by
  refine ⟨?_, (exec_sees hx h).1⟩
  induction h with
  | ret a d => exact .ret _ _
  | @op c k d d1 d' x a hs he ih =>
    refine .op (d1 := { d1 with user := us }) (x := x) ?_ (ih (hx.2 _) fun q hq => ?_)
    · have hc := hx.1
      cases c with
      | isSymlink q =>
        obtain ⟨rfl, hs⟩ := hs
        refine ⟨rfl, ?_⟩
        simpa only [hus q hc] using hs
      | readlink q =>
        obtain ⟨rfl, hs⟩ := hs
        refine ⟨rfl, ?_⟩
        simpa only [hus q hc] using hs
      | _ => first | exact hc.elim | (refine step_user ?_ hs us; trivial)
    · rw [hus q hq]
      have := exec_sees (A := A) (p := .op c fun y => .ret y) ⟨hx.1, fun _ => trivial⟩ (.op hs (.ret _ _))
      rw [this.1]

/-- Making a workspace at a path where a link to somewhere else stands: what works with an empty directory there works with the link too. -/
theorem takes_run {A : Str → Prop} {y : M OpenWs} (hy : Calms A y) {target : Str} (hA : ¬ A target)
    (hdir : ∀ {w' : OpenWs} {d d' : Disk}, Exec E Faults.none y d (.ok w') d' → w'.mount.dir = w'.mount.id.base32 ∧ w'.ws.path = target) (hoff : E.Off target)
    {d : Disk} {t : Str} (hl : d.user target = .link t) (hf : ∀ n, t ≠ E.mountPath n) {e' : Disk} {w : OpenWs}
    (h : Exec E Faults.none (y >>= fun w' => expand E w' >>= fun _ => Pure.pure w' : M OpenWs) { d with user := upd d.user target .emptyDir } (.ok w) e') :
    ∃ d', Exec E Faults.none (y >>= fun w' => expand E w' >>= fun _ => Pure.pure w' : M OpenWs) d (.ok w) d' := by
  obtain ⟨w1, e1, h1, h⟩ := exec_ok_inv h
  obtain ⟨_, e3, h2, h⟩ := exec_ok_inv h
  cases h
  obtain ⟨hd1, hp⟩ := hdir h1
  rw [expand_eq] at h2
  obtain ⟨_, e2, h2, _⟩ := exec_ok_inv h2
  have k1 := (exec_user hy h1 (us := d.user) fun q hq => (upd_ne _ _ (fun e : q = target => hA (e ▸ hq))).symm).1
  have k2 := (exec_user (A := fun _ => False) (mountP_calms _) h2 (us := d.user) fun _ => False.elim).1
  have hno : ¬ ∃ n, E.Inside w.ws.path n := by rw [hp]; exact off_not hoff
  refine ⟨?_, exec_ok k1 (exec_ok (x := expand E w) (exec_ok k2 (k := fun _ => relink E w) (r := .ok ()) ?_) (.ret _ _))⟩
  · exact ((({ e2 with user := d.user } : Disk).setUser target .none).setUser target (.link (E.mountPath w.mount.dir)))
  · unfold relink
    rw [hp] at hno ⊢
    refine .op (x := true) (Or.inl ⟨rfl, trivial, rfl⟩) ?_
    refine .op (x := true) (Or.inl ⟨rfl, trivial, rfl⟩) ?_
    refine .op (x := true) ⟨rfl, Or.inl ?_⟩ ?_
    · unfold Exists
      dsimp only
      rw [hl]
      exact fun n hn => absurd hn (hf n)
    refine .op (x := true) (Or.inl ⟨hno, Or.inl ⟨rfl, Or.inr (Or.inr ⟨t, hl⟩), rfl⟩⟩) ?_
    refine .op (x := true) (Or.inl ⟨hno, Or.inl ⟨rfl, upd_self _ _ _, rfl⟩⟩) ?_
    refine .op (x := true) (Or.inl ⟨hno, Or.inl ⟨rfl, ⟨?_, ?_⟩, rfl⟩⟩) ?_
    · rw [show (Disk.setUser _ target _).user target = _ from upd_self _ _ _]; exact nofun
    · rw [show (Disk.setUser _ target _).user target = _ from upd_self _ _ _]; exact nofun
    exact .op (x := true) (Or.inl ⟨rfl, trivial, rfl⟩) (.ret _ _)

/-- **C108 (violated).** There are such runs: `init` takes the path of a workspace of another data directory that shows no files, and `clone` that of
any, and the workspace is not there any more. -/
theorem C108_violated_lost {d1 d2 : Disk} (hd1 : Reachable E1 d1) (hd2 : Reachable E2 d2) (_hu : d1.user = d2.user) (haw : E1.Away E2) {cwd path : Str}
    (hout : E1.Outside (Path.abs cwd path)) (hout2 : E2.Outside (Path.abs cwd path)) {w : OpenWs} (_hg : Gets E2 d2 cwd path w) (_hm : d2.Mounted w)
    (hfor : Foreign E1 d1 (Path.abs cwd path)) (hused : d1.used.length + 5 < 2 ^ 128) :
    (∀ branch, E1.Fits 1 → (∀ x, d2.lists w [x] = none) → ∃ r d1', Exec E1 Faults.none (initCmd E1 (Path.abs cwd path) branch) d1 (.ok r) d1' ∧
      ∀ w', ¬ Gets E2 { d2 with user := d1'.user } cwd path w') ∧
    ∀ cwd' source w1, E1.Outside (Path.abs cwd' source) → Path.abs cwd' source ≠ Path.abs cwd path → Gets E1 d1 cwd' source w1 →
      (∀ u p ls, w1.ws.HeadAt w1.tree u p → w1.tree.abs.Path p ls → E1.Fits ls.length) →
      ∃ r d1', Exec E1 Faults.none (cloneCmd E1 cwd' source (Path.abs cwd path)) d1 (.ok r) d1' ∧ ∀ w', ¬ Gets E2 { d2 with user := d1'.user } cwd path w' := by
  obtain ⟨t, hl, hf⟩ := hfor
  have hoff := off_of_outside hout
  have htk := fun d1' => C108_violated_taken (d1' := d1') (f := Faults.none) hd1 hd2 haw hout hout2
  generalize Path.abs cwd path = q at *
  have hr : Reachable E1 { d1 with user := upd d1.user q .emptyDir } := reachable_files hd1 _
  have hclr : Clearable E1 { d1 with user := upd d1.user q .emptyDir } q := Or.inr (Or.inl (upd_self _ _ _))
  have hfree : FreeFor E1 { d1 with user := upd d1.user q .emptyDir } q := by
    unfold FreeFor; dsimp only; rw [upd_self]; trivial
  refine ⟨fun branch hfit _ => ?_, fun cwd' source w1 ho hne hg1 hfit => ?_⟩
  · obtain ⟨r, e', he⟩ := exec_total (E := E1) (f := Faults.none) (initCmd_draws E1 q branch) { d1 with user := upd d1.user q .emptyDir } hused
    obtain ⟨x, rfl⟩ := C55_accepted hr hoff hfree hclr hfit he
    have he' : Exec E1 Faults.none (createWorkspace E1 q branch >>= fun w' => expand E1 w' >>= fun _ => Pure.pure w' : M OpenWs) { d1 with user := upd d1.user q .emptyDir } (.ok x) e' := by
      unfold initCmd at he
      cases he with | op h1 he =>
      obtain ⟨rfl, h1⟩ := h1
      rename_i a
      cases a with
      | true =>
        cases he with | op h2 he =>
        obtain ⟨rfl, h2⟩ := h2
        rename_i b
        cases b with
        | true => exact he
        | false => cases he
      | false => exact he
    obtain ⟨d', h⟩ := takes_run (createWorkspace_calms E1 q branch) (A := fun _ => False) (fun h => h) createWorkspace_dir hoff hl hf he'
    have h' : Exec E1 Faults.none (initCmd E1 q branch) d1 (.ok x) d' := by
      unfold initCmd
      refine .op (x := true) ⟨rfl, Or.inl ?_⟩ ?_
      · unfold Exists; rw [hl]; exact fun n hn => absurd hn (hf n)
      refine .op (c := .isEmptyDir q) (x := true) ⟨rfl, Or.inl ?_⟩ h
      unfold EmptyDir; rw [hl]; exact fun n hn => absurd hn (hf n)
    exact ⟨x, d', h', (htk d').1 branch x h'⟩
  · obtain ⟨r, e', he⟩ := exec_total (E := E1) (f := Faults.none) (cloneCmd_draws E1 cwd' source q) { d1 with user := upd d1.user q .emptyDir } (by dsimp only; omega)
    obtain ⟨g, hs⟩ := steady_reachable hd1
    obtain ⟨u, p, T, hF⟩ := found_of_gets hs ho hg1
    have hO : Opens E1 { d1 with user := upd d1.user q .emptyDir } cwd' source w1 u p := by
      obtain ⟨t1, a1, a2⟩ := hF.opens.link
      exact ⟨hF.opens.out, ⟨t1, (upd_ne _ _ hne).trans a1, a2⟩, hF.opens.path, hF.opens.info, hF.opens.mount, hF.opens.dir, hF.opens.tree, hF.opens.head, hF.opens.stored⟩
    have hp := wpm_exec (cloneCmd_wp hO hoff) he
    cases r with
    | err e =>
      exfalso
      cases hee : e.early with
      | true =>
        obtain ⟨g', hs'⟩ := steady_reachable hr
        exact (hp.1 hee).2 ⟨rfl, rfl, hs'.tracked⟩
      | false =>
        obtain ⟨_, h | ⟨_, _, _, _, hls, _, _, _, h | h⟩⟩ := hp.2 hee
        · cases h
        · exact h (hfit _ _ _ hF.opens.head hls)
        · exact h hclr
    | panic => exact hp.elim
    | diverge => exact hp.elim
    | ok x =>
      have he' : Exec E1 Faults.none ((getWorkspace E1 cwd' source >>= fun w => cloneP E1 w q) >>= fun w' => expand E1 w' >>= fun _ => Pure.pure w' : M OpenWs)
          { d1 with user := upd d1.user q .emptyDir } (.ok x) e' := by
        unfold cloneCmd at he
        obtain ⟨w2, y1, b1, he⟩ := exec_ok_inv he
        obtain ⟨w3, y2, b2, he⟩ := exec_ok_inv he
        exact exec_ok (exec_ok b1 b2) he
      obtain ⟨d', h⟩ := takes_run (A := fun z => z = Path.abs cwd' source) (calms_bind (getWorkspace_calms E1 cwd' source rfl) fun w => cloneP_calms E1 w q)
        (fun e => hne e.symm) (fun h => by obtain ⟨_, _, _, h⟩ := exec_ok_inv h; exact cloneP_dir h) hoff hl hf he'
      have h' : Exec E1 Faults.none (cloneCmd E1 cwd' source q) d1 (.ok x) d' := by
        unfold cloneCmd
        obtain ⟨w3, y2, b2, h⟩ := exec_ok_inv h
        obtain ⟨w2, y1, b1, b2⟩ := exec_ok_inv b2
        exact exec_ok b1 (exec_ok b2 h)
      exact ⟨x, d', h', (htk d').2 cwd' source x ho h'⟩

end
end Verif