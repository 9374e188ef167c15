import Verif.Props.LaterExamples
import Verif.Props.CliWorld
import Verif.Props.Owner
import Verif.Props.Refused
import Verif.Props.Process
import Verif.Props.Pool
import Verif.Props.WholePast
import Verif.Props.Overlap
/-!
# Concrete cases, continued

Cases for theorems whose hypotheses are not met by the cases next to them.
-/
set_option autoImplicit false
namespace Verif
open M TS Json

section
variable {E : Env}

/-- A new branch of a usable workspace. -/
theorem live_branch {d : Disk} (hE : E.Neat) {cwd : Str} {w : OpenWs} {u p : UID} {ls : List UID} (h : Live E d cwd w u p ls) {name : Str} (h8 : validUtf8 name)
    (hno : w.tree.abs.branch (w.ws.id.base32 ++ lit "/" ++ name) = none) (hu : d.used.length < 2 ^ 128) :
    ∃ d' s w', Exec E Faults.none (editCmd E cwd [.addBranch name (lit "HEAD") false]) d (.ok s) d' ∧ Live E d' cwd w' u p ls ∧ d'.used.length ≤ d.used.length ∧ SameWs w w' ∧
      w'.tree.abs.branch (w.ws.id.base32 ++ lit "/" ++ name) = some p ∧
      (∀ b, b ≠ w.ws.id.base32 ++ lit "/" ++ name → w'.tree.abs.branch b = w.tree.abs.branch b) ∧ w'.tree.abs.tag = w.tree.abs.tag ∧ w'.tree.abs.node = w.tree.abs.node := by
  obtain ⟨r, d', he⟩ := exec_total (E := E) (f := Faults.none) (editCmd_draws E cwd [.addBranch name (lit "HEAD") false]) d (by omega)
  obtain ⟨s, rfl⟩ := (C24_accepted_iff h.past.reachable h.opens.out h.gets h.opens.head rfl (e := .addBranch name (lit "HEAD") false) head_plain he).2
    ⟨_, .addBranch (v := p) (k := .commit) .head (Or.inl hno)⟩
  obtain ⟨w2, v, k, h1, h2, h3, h4, _, h6, h7, h9, h10, h11, a1, a2, a3, a4, a5, _⟩ := C59_branch h.past.reachable h.opens.out h.gets h.opens.head h8 he
  obtain ⟨rfl, _⟩ := Ws.resolves_unique h4 .head
  obtain ⟨d0, h0, hp⟩ := h.past
  have hC : Calmly E d' := ⟨d0, h0, .step (o := E.owner) hp (a := .edit cwd [.addBranch name (lit "HEAD") false])
    h.opens.out (.edit he)⟩
  obtain ⟨g, hs⟩ := steady_reachable hC.reachable
  obtain ⟨T, hF⟩ := gets_found hs h.opens.out h1 h3
  have hm : w2.mount.id = w.mount.id := by
    obtain ⟨t, e1, e2⟩ := h.opens.link
    obtain ⟨t', e1', e2'⟩ := hF.opens.link
    rw [a5, e1] at e1'
    cases e1'
    rw [e2] at e2'
    exact (Res.ok.inj e2').symm
  exact ⟨d', s, w2, he, ⟨hC, hF.opens, by rw [hm, a4]; exact h.mnt, by rw [hm, a5]; exact h.link, by rw [hm, a2]; exact h.mdir, path_congr (by rw [h10]; exact fun _ => rfl) h.path⟩,
    exec_used (editCmd_draws E cwd _) he, h2, h6, h7, h9, h10⟩

end

namespace Story
open Cli

theorem Begun.noTag {d : Disk} {w : OpenWs} {u root : UID} (hB : Begun d w u root) {t : Str} (ht : t ≠ lit "ROOT") : w.tree.abs.tag t = none := by
  cases h : w.tree.abs.tag t with
  | none => rfl
  | some v => exact absurd ((hB.new.tags _ _).1 h).1 ht

theorem Begun.noBranch {d : Disk} {w : OpenWs} {u root : UID} (hB : Begun d w u root) {b : Str} (hb : b ≠ lit "main") :
    w.tree.abs.branch (w.ws.id.base32 ++ lit "/" ++ b) = none := by
  cases h : w.tree.abs.branch (w.ws.id.base32 ++ lit "/" ++ b) with
  | none => rfl
  | some v => exact absurd (List.append_cancel_left ((hB.new.branches _ _).1 h).1) hb

theorem Begun.nothing {d : Disk} {w : OpenWs} {u root : UID} (hB : Begun d w u root) (w' : OpenWs) : ¬ Gets E0 d cv (lit ".") w' := by
  intro h
  obtain ⟨g, hs⟩ := steady_reachable hB.live.past.reachable
  obtain ⟨_, _, _, hF⟩ := found_of_gets hs outv h
  obtain ⟨_, e, _⟩ := hF.opens.link
  rw [hB.free _ vw] at e
  cases e

/-! ## Moves -/

/-- `C41_checkout`, `C57_checkout_partial`, `C57_commit_partial`: `checkout HEAD` and a commit. -/
example : ∃ d w u p d1 r1 d2 r2, Reachable E0 d ∧ Gets E0 d cw (lit ".") w ∧ w.ws.HeadAt w.tree u p ∧ PlainLink d cw (lit ".") ∧ PlainKey (lit "HEAD") ∧ d.space w.spaceDir ≠ none ∧
    Exec E0 Faults.none (checkoutCmd E0 cw (lit "HEAD")) d (.ok r1) d1 ∧ Stops E0 Faults.none (checkoutCmd E0 cw (lit "HEAD")) d d1 ∧
    Exec E0 Faults.none (commitCmd E0 cw ci) d (.ok r2) d2 := by
  obtain ⟨d, w, u, root, hB⟩ := begun
  have := hB.used
  obtain ⟨d1, r1, _, _, he1, _⟩ := live_checkout neat plainHEAD hB.live .head hB.live.path (fits (by simp)) (by omega)
  obtain ⟨d2, r2, _, _, he2, _⟩ := live_commit neat hB.live hB.may (fits (by simp)) (by omega) ci
  refine ⟨d, w, u, root, d1, r1, d2, r2, hB.live.past.reachable, hB.live.gets, hB.live.opens.head, hB.live.plain neat, plainHEAD, ?_, he1, exec_stops he1, he2⟩
  obtain ⟨_, b, _, _, h, _⟩ := hB.live.opens.tree
  rw [h]; simp

/-- `C41_clone`, `C41_init`, `C57_clone_partial`: a clone of `/w` and another `init`, from a disk with a space. -/
example : ∃ d w u p d1 r1 d2, Reachable E0 d ∧ Gets E0 d cw (lit ".") w ∧ w.ws.HeadAt w.tree u p ∧ PlainLink d cw (lit ".") ∧ E0.Off (Path.abs cv (lit ".")) ∧ d.space w.spaceDir ≠ none ∧
    Exec E0 Faults.none (cloneCmd E0 cw (lit ".") (Path.abs cv (lit "."))) d (.ok r1) d1 ∧ Stops E0 Faults.none (cloneCmd E0 cw (lit ".") (Path.abs cv (lit "."))) d d1 ∧
    Stops E0 Faults.none (initCmd E0 (Path.abs cv (lit ".")) (lit "main")) d d2 ∧ d2.user (Path.abs cv (lit ".")) ≠ d.user (Path.abs cv (lit ".")) := by
  obtain ⟨d, w, u, root, hB⟩ := begun
  have := hB.used
  obtain ⟨d1, r1, _, _, he1, _⟩ := live_clone neat hB.live outv (hB.free _ vw) (fits (by simp)) (by omega)
  obtain ⟨d2, r2, _, _, _, he2, hL2, _⟩ := live_init hB.live.past (cwd := cv) (branch := lit "main") outv (hB.free _ vw) (fits (by decide)) (by omega)
  refine ⟨d, w, u, root, d1, r1, d2, hB.live.past.reachable, hB.live.gets, hB.live.opens.head, hB.live.plain neat, off_of_outside outv, ?_, he1, exec_stops he1, exec_stops he2, ?_⟩
  · obtain ⟨_, b, _, _, h, _⟩ := hB.live.opens.tree
    rw [h]; simp
  · rw [hL2.link, hB.free _ vw]; simp

/-- `C42_clone`, `C82_no_source_partial`, `C41_closed`: a clone of `/v`, where nothing is. -/
example : ∃ d e, Reachable E0 d ∧ PlainLink d cv (lit ".") ∧ (∀ w, ¬ Gets E0 d cv (lit ".") w) ∧
    Exec E0 Faults.none (cloneCmd E0 cv (lit ".") (Path.abs (lit "/x") (lit "."))) d (.err e) d ∧ e.early = true ∧
    Stops E0 Faults.none (cloneCmd E0 cv (lit ".") (Path.abs (lit "/x") (lit "."))) d d := by
  obtain ⟨d, w, u, root, hB⟩ := begun
  have := hB.used
  have hpl : PlainLink d cv (lit ".") := by intro t ht; rw [hB.free _ vw] at ht; cases ht
  obtain ⟨r, d', he⟩ := exec_total (E := E0) (f := Faults.none) (cloneCmd_draws E0 cv (lit ".") (Path.abs (lit "/x") (lit "."))) d (by omega)
  obtain ⟨⟨_, he1⟩, rfl⟩ := C82_no_source_partial hB.live.past.reachable outv hB.nothing he
  obtain ⟨e, rfl⟩ := he1 hpl
  refine ⟨_, e, hB.live.past.reachable, hpl, hB.nothing, he, ?_, exec_stops he⟩
  obtain ⟨g, hs⟩ := steady_reachable hB.live.past.reachable
  obtain ⟨a, d1, h1, h2⟩ := exec_bind (p := getWorkspace E0 cv (lit ".")) he
  have := wpm_exec (opens_of_steady hs outv hpl) h1
  cases a with
  | ok a =>
    obtain ⟨_, _, _, h, _⟩ := this
    exact absurd (gets_of_opens h) (hB.nothing _)
  | err e' => cases h2; exact this.2
  | panic => exact this.elim
  | diverge => exact this.elim

/-- `C76_violated_checkout`: a workspace of mode 0700 is open after `checkout HEAD`. -/
example : ∃ d w a d' r, Reachable E0 d ∧ Gets E0 d cw (lit ".") w ∧ d.top w = some (.dir a) ∧ a.mode ≠ 0o755 ∧ Exec E0 Faults.none (checkoutCmd E0 cw (lit "HEAD")) d (.ok r) d' := by
  obtain ⟨d, w, u, root, hL, hus, _, ht⟩ := closed
  obtain ⟨d', r, _, _, he, _⟩ := live_checkout neat plainHEAD hL .head hL.path (fits (by simp)) (by omega)
  exact ⟨d, w, _, d', r, hL.past.reachable, hL.gets, ht, by decide, he⟩

/-! ## Branches and tags -/

/-- `C59_branch`, `C59_unbranch`, `C70_branches`: the branch `dev` is made and deleted. -/
example : ∃ d d1 d2 w w1 s s2, Calmly E0 d ∧ Gets E0 d cw (lit ".") w ∧ validUtf8 (lit "dev") ∧
    Exec E0 Faults.none (editCmd E0 cw [.addBranch (lit "dev") (lit "HEAD") false]) d (.ok s) d1 ∧ Gets E0 d1 cw (lit ".") w1 ∧ Reachable E0 d1 ∧
    Exec E0 Faults.none (editCmd E0 cw [.deleteBranch (lit "dev") false]) d1 (.ok s2) d2 ∧
    Exec E0 Faults.none (((Order.deleteBranches [lit "dev"] false).command cw []).prog E0) d1 (.ok (.edited s2)) d2 := by
  obtain ⟨d, w, u, root, hB⟩ := begun
  have := hB.used
  have h8 : validUtf8 (lit "dev") := valid_ascii (by decide)
  obtain ⟨d1, s, w1, he, hL1, hu1, hsame, hbr, _⟩ := live_branch neat hB.live h8 (hB.noBranch (by decide)) (by omega)
  obtain ⟨r, d2, he2⟩ := exec_total (E := E0) (f := Faults.none) (editCmd_draws E0 cw [.deleteBranch (lit "dev") false]) d1 (by omega)
  obtain ⟨s2, rfl⟩ := (C24_accepted_iff hL1.past.reachable outw hL1.gets hL1.opens.head rfl (e := .deleteBranch (lit "dev") false) trivial he2).2
    ⟨_, .deleteOwn (by rw [hsame.2.1, hB.branch]; decide) (by rw [hsame.1, hbr]; simp)⟩
  exact ⟨d, d1, d2, w, w1, s, s2, hB.live.past, hB.live.gets, h8, he, hL1.gets, hL1.past.reachable, he2, exec_trans he2 (.ret _ _)⟩

/-- `C70_branches_stop`: `branch -d main` on `main`. -/
example : ∃ d e d', Calmly E0 d ∧ Exec E0 Faults.none (((Order.deleteBranches [lit "main"] false).command cw []).prog E0) d (.err e) d' := by
  obtain ⟨d, w, u, root, hB⟩ := begun
  have := hB.used
  obtain ⟨r, d', he⟩ := exec_total (E := E0) (f := Faults.none) (editCmd_draws E0 cw [.deleteBranch (lit "main") false]) d (by omega)
  rcases C57_edit_partial hB.live.past.reachable outw (hB.live.plain neat) (by simp [Edit.Plain]) he with ⟨s, rfl⟩ | ⟨e, rfl⟩
  · have hx : Exec E0 Faults.none (((Order.deleteBranches [lit "main"] false).command cw []).prog E0) d (.ok (.edited s)) d' := exec_trans he (.ret _ _)
    obtain ⟨_, h2, _⟩ := C70_branches hB.live.past.reachable outw hB.live.gets hB.live.opens.head hx
    exact absurd (by rw [hB.branch]; simp) h2
  · exact ⟨d, e, d', hB.live.past, exec_trans he (.ret _ _)⟩

/-- `C46_violated_move`: after a commit `tag -f ROOT HEAD` is accepted; ROOT is the commit then. -/
example : ∃ d w u p r d' s, Reachable E0 d ∧ Gets E0 d cw (lit ".") w ∧ w.ws.HeadAt w.tree u p ∧ w.tree.abs.root = some r ∧ p ≠ r ∧
    Exec E0 Faults.none (editCmd E0 cw [.addTag (lit "ROOT") (lit "HEAD") true]) d (.ok s) d' := by
  obtain ⟨d0, w0, u0, root, d, w, u, hB, hS⟩ := second
  have := hS.used
  obtain ⟨r, d', he⟩ := exec_total (E := E0) (f := Faults.none) (editCmd_draws E0 cw [.addTag (lit "ROOT") (lit "HEAD") true]) d (by omega)
  obtain ⟨s, rfl⟩ := (C24_accepted_iff hS.live.past.reachable outw hS.live.gets hS.live.opens.head rfl (e := .addTag (lit "ROOT") (lit "HEAD") true) plainHEAD he).2
    ⟨_, .addTag (v := u0) (k := .commit) .head (Or.inr rfl)⟩
  exact ⟨d, w, u, u0, root, d', s, hS.live.past.reachable, hS.live.gets, hS.live.opens.head, by rw [hS.effect.root]; exact hB.new.start, hB.new.ne, he⟩

theorem plainMain : PlainKey (lit "main") := by unfold PlainKey; decide

theorem Begun.main {d : Disk} {w : OpenWs} {u root : UID} (hB : Begun d w u root) : Ws.Resolves w.tree.abs w.ws.id root (lit "main") root .branch := by
  refine .own (by decide) (fun v hv => ?_) (hB.noTag (by decide)) ?_ ((hB.new.branches _ root).2 ⟨rfl, rfl⟩)
  · rcases hv with ⟨h, _⟩ | ⟨h, _⟩ <;> exact absurd h (by decide)
  · cases h : w.tree.abs.branch (lit "main") with
    | none => rfl
    | some v =>
      have h1 := congrArg List.length ((hB.new.branches _ _).1 h).1
      simp [C02_base32_length] at h1
      exact absurd h1 (by decide)

/-- `C65_checkout_partial`: after `checkout main`, `branch --show-current` prints `main`. -/
example : ∃ d d' r w2, Calmly E0 d ∧ Exec E0 Faults.none (checkoutCmd E0 cw (lit "main")) d (.ok r) d' ∧ Gets E0 d' cw (lit ".") w2 ∧ Shows w2 .showCurrent (lit "main\n") := by
  obtain ⟨d, w, u, root, hB⟩ := begun
  have := hB.used
  obtain ⟨d', r, _, _, he, _⟩ := live_checkout neat plainMain hB.live hB.main hB.live.path (fits (by simp)) (by omega)
  obtain ⟨w2, h1, h2⟩ := C65_checkout_partial hB.live.past.reachable outw hB.live.gets hB.live.opens.head (valid_ascii (by decide)) hB.main he
  exact ⟨d, d', r, w2, hB.live.past, he, h1, (h2 _).2 rfl⟩

/-- `C69_all`, `C69_remotes`: the listings of a new workspace; `branch -a` has the line `main`. -/
example : ∃ d w out, Reachable E0 d ∧ Gets E0 d cw (lit ".") w ∧ Shows w (.listBranches .all) out ∧ IsLine (lit "main") out ∧ Shows w (.listBranches .remotes) [] := by
  obtain ⟨d, w, u, root, hB⟩ := begun
  have hw := wf_of_reach (gets_reach hB.live.past.reachable outw hB.live.gets)
  have hn := C21_reachable_names hB.live.past.reachable outw hB.live.gets
  obtain ⟨⟨bs, hbs⟩, _⟩ := Ws.C21_all_branches_partial hw hn w.ws
  obtain ⟨⟨rs, hrs⟩, _⟩ := Ws.C21_remote_branches_partial hw hn
  have h1 : Shows w (.listBranches .all) _ := ⟨bs, hbs, rfl⟩
  have h2 : Shows w (.listBranches .remotes) _ := ⟨rs, hrs, rfl⟩
  refine ⟨d, w, _, hB.live.past.reachable, hB.live.gets, h1, ?_, ?_⟩
  · exact (C69_all hB.live.past.reachable outw hB.live.gets h1 _).2 ⟨by decide, root, (hB.new.branches _ root).2 ⟨rfl, rfl⟩⟩
  · rw [C69_remotes hB.live.past.reachable outw hB.live.gets h2] at h2; exact h2

/-- `C64_violated_untag_disk`: the tag `ROOT` of a new workspace is deleted by `tag -d -- ROOT` although the command fails. -/
example : ∃ d w u p, Reachable E0 d ∧ Gets E0 d cw (lit ".") w ∧ w.ws.HeadAt w.tree u p ∧ w.tree.abs.tag (lit "ROOT") ≠ none ∧ w.tree.abs.tag (lit "--uid") = none ∧ PlainLink d cw (lit ".") ∧
    ∃ j r d', asUser 1000 100 cw [lit "tag", lit "-d", lit "--", lit "ROOT"] = .ok j ∧ Exec E0 Faults.none ((j.order.command cw []).prog E0) d r d' := by
  obtain ⟨d, w, u, root, hB⟩ := begun
  have := hB.used
  have h1 : w.tree.abs.tag (lit "ROOT") ≠ none := by rw [(hB.new.tags _ root).2 ⟨rfl, rfl⟩]; simp
  obtain ⟨j, h2, h3⟩ := C64_violated_untag (uid := 1000) (gid := 100) (by decide) cw (lit "ROOT")
  obtain ⟨r, d', he⟩ := exec_total (E := E0) (f := Faults.none)
    (editCmd_draws E0 cw ([lit "ROOT", lit "--uid", Time.dec 1000, lit "--gid", Time.dec 100].map Edit.deleteTag)) d (by omega)
  have : ∃ r', Exec E0 Faults.none ((j.order.command cw []).prog E0) d r' d' := by
    rw [h3]
    cases r with
    | ok s => exact ⟨_, exec_trans he (.ret _ _)⟩
    | err e => exact ⟨_, exec_trans he (.ret _ _)⟩
    | panic => exact ⟨_, exec_trans he (.ret _ _)⟩
    | diverge => exact ⟨_, exec_trans he (.ret _ _)⟩
  obtain ⟨r', he'⟩ := this
  exact ⟨d, w, u, root, hB.live.past.reachable, hB.live.gets, hB.live.opens.head, h1, hB.noTag (by decide), hB.live.plain neat, j, r', d', h2, he'⟩

/-- `C55_references`: a branch name that does not spell an ID. -/
example : ∃ a wid root u, NewHistory a wid root u (lit "main") ∧ ¬ Spells (lit "main") u := by
  obtain ⟨d, w, u, root, hB⟩ := begun
  exact ⟨_, _, _, _, hB.new, by rintro (⟨h, _⟩ | ⟨h, _⟩) <;> exact absurd h (by decide)⟩

/-- `C50_violated_utf8`: a message that is no text. -/
example : ∃ d w u p d' r, Reachable E0 d ∧ Gets E0 d cw (lit ".") w ∧ w.ws.HeadAt w.tree u p ∧ ¬ validUtf8 [0xFF] ∧ Exec E0 Faults.none (commitCmd E0 cw ⟨ci.date, [0xFF]⟩) d (.ok r) d' := by
  obtain ⟨d, w, u, root, hB⟩ := begun
  have := hB.used
  obtain ⟨d', r, _, _, he, _⟩ := live_commit neat hB.live hB.may (fits (by simp)) (by omega) ⟨ci.date, [0xFF]⟩
  exact ⟨d, w, u, root, d', r, hB.live.past.reachable, hB.live.gets, hB.live.opens.head, fun h => h (.bad 0xFF) (by decide) 0xFF rfl, he⟩

/-- `C30_violated_full_name`: with a branch whose short name is the full name of `main`, that full name can be checked out and committed to. -/
example : ∃ d w u p v d1 d2 r r2, Reachable E0 d ∧ Gets E0 d cw (lit ".") w ∧ w.ws.HeadAt w.tree u p ∧ PlainKey (w.ws.id.base32 ++ lit "/" ++ lit "main") ∧
    Ws.Resolves w.tree.abs w.ws.id p (w.ws.id.base32 ++ lit "/" ++ lit "main") v .branch ∧ w.tree.abs.branch (w.ws.id.base32 ++ lit "/" ++ lit "main") = some v ∧
    Exec E0 Faults.none (checkoutCmd E0 cw (w.ws.id.base32 ++ lit "/" ++ lit "main")) d (.ok r) d1 ∧ Exec E0 Faults.none (commitCmd E0 cw ci) d1 (.ok r2) d2 := by
  obtain ⟨d0, w0, u, root, hB⟩ := begun
  have := hB.used
  have hb32 := (C05_base32_decode_iff w0.ws.id.base32 w0.ws.id).1 (C02_base32_roundtrip w0.ws.id)
  have h3 : ∀ b ∈ w0.ws.id.base32 ++ lit "/" ++ lit "main", b ≠ 10 ∧ b ≠ 13 ∧ b ≠ 0xFF ∧ b < 0x80 := by
    have h1 : ∀ b ∈ base32Chars, b ≠ 10 ∧ b ≠ 13 ∧ b ≠ 0xFF ∧ b < 0x80 := by decide
    have h2 : ∀ b ∈ lit "/" ++ lit "main", b ≠ 10 ∧ b ≠ 13 ∧ b ≠ 0xFF ∧ b < 0x80 := by decide
    intro b hb
    rw [List.append_assoc] at hb
    rcases List.mem_append.1 hb with hb | hb
    · exact h1 b (hb32.2.1 b hb)
    · exact h2 b hb
  have hk : PlainKey (w0.ws.id.base32 ++ lit "/" ++ lit "main") := plainKey_bytes (fun h => (h3 _ h).1 rfl) (fun h => (h3 _ h).2.1 rfl) (fun h => (h3 _ h).2.2.1 rfl)
  have hne : ∀ x : Str, x.length < 27 → w0.ws.id.base32 ++ lit "/" ++ lit "main" ≠ x := by
    intro x hx h
    have := congrArg List.length h
    simp only [List.length_append, C02_base32_length] at this
    have h4 : (lit "/").length + (lit "main").length = 5 := by decide
    omega
  have h8 : validUtf8 (w0.ws.id.base32 ++ lit "/" ++ lit "main") := valid_ascii fun b hb => (h3 b hb).2.2.2
  obtain ⟨d, s, w, he0, hL, hu, hsame, hbr, hoth, htag, hnode⟩ := live_branch neat hB.live h8 (hB.noBranch (hne _ (by decide))) (by omega)
  have hkeep : w.tree.abs.branch (w.ws.id.base32 ++ lit "/" ++ lit "main") = some root := by
    rw [hsame.1, hoth]
    · exact (hB.new.branches _ root).2 ⟨rfl, rfl⟩
    · exact fun h => hne _ (by decide) (List.append_cancel_left h).symm
  have hR : Ws.Resolves w.tree.abs w.ws.id root (w.ws.id.base32 ++ lit "/" ++ lit "main") root .branch := by
    rw [hsame.1] at hkeep ⊢
    refine .full (hne _ (by decide)) (fun v hv => ?_) (by rw [htag]; exact hB.noTag (hne _ (by decide))) hkeep
    rcases hv with ⟨h, _⟩ | ⟨h, _⟩ <;> simp only [List.length_append, C02_base32_length] at h <;> exact absurd h (by decide)
  rw [← hsame.1] at hk hbr h8
  obtain ⟨d1, r, w1, u1, he1, hL1, hu1, hid, _, hb1, _, _⟩ := live_checkout neat hk hL hR hL.path (fits (by simp)) (by omega)
  have hmay : MayCommit w1 u1 := by
    obtain ⟨w1', u1', h1, h2, h3, h4, h5⟩ := C30_own_branch (f := Faults.none) hL.past.reachable outw hL.gets (by rw [hsame.1]; exact hne _ (by decide)) hL.opens.head hR hbr he1
    obtain rfl := gets_unique hL1.past.reachable outw hL1.gets h1
    obtain ⟨rfl, _⟩ := headAt_unique (wf_of_reach (opens_reach hL1.opens)) hL1.opens.head h2
    exact h5
  obtain ⟨d2, r2, _, _, he2, _⟩ := live_commit neat hL1 hmay (fits (by simp)) (by omega) ci
  exact ⟨d, w, u, root, root, d1, d2, r, r2, hL.past.reachable, hL.gets, hL.opens.head, hk, hR, hkeep, he1, he2⟩

/-! ## Executions -/

/-- `/w` is made by one process and committed to by another. -/
theorem ran : ∃ (W : World) (d : Disk) (w : OpenWs) (u root : UID) (r : OpenWs × OpenWs) (w' : OpenWs) (u' : UID), Sys.Steps E0 Faults.none ⟨disk0, fun _ => none⟩ W ∧ Ended W 1 (.ok (.moved r.1 r.2)) ∧
    Live E0 d cw w u root [root] ∧ Exec E0 Faults.none (commitCmd E0 cw ci) d (.ok r) W.disk ∧ Live E0 W.disk cw w' u' u [u, root] ∧ W.disk.used.length ≤ 7 := by
  obtain ⟨d1, r, w, u, root, he, hL, hus, hb, hN, hfr, hhd⟩ := live_init (E := E0) (d := disk0) ⟨disk0, untouched0, .refl⟩ (cwd := cw) (branch := lit "main")
    outw rfl (fits (by decide)) (by decide)
  rw [main_clean] at hb hN
  have hf : MayCommit w u := Or.inr ⟨root, by rw [hb]; exact (hN.branches _ _).2 ⟨rfl, rfl⟩, .step hN.work rfl (.refl hN.first)⟩
  have hus0 : d1.used.length ≤ 5 := hus
  obtain ⟨d2, r2, w2, u2, he2, hL2, hu2, _⟩ := live_commit neat hL hf (fits (by simp)) (by omega) ci
  have e1 : Exec E0 Faults.none ((Command.init (Path.abs cw (lit ".")) (lit "main")).prog E0) disk0 (.ok (.made r)) d1 := exec_ok he (.ret _ _)
  have e2 : Exec E0 Faults.none ((Command.commit cw ci).prog E0) d1 (.ok (.moved r2.1 r2.2)) d2 := exec_ok he2 (.ret _ _)
  obtain ⟨t1, k1⟩ := steps_exec e1 (fun _ => none) 0 disk0 []
  obtain ⟨t2, k2⟩ := steps_exec e2 (upd (fun _ => none) 0 (some ⟨disk0, t1, .ret (.ok (.made r))⟩)) 1 d1 []
  exact ⟨_, d1, w, u, root, r2, w2, u2, Sys.Steps.trans (.step (Sys.Steps.trans (.step (.refl _) (.start 0 _ rfl)) k1) (.start 1 _ rfl)) k2, ⟨⟨d1, t2, .ret (.ok (.moved r2.1 r2.2))⟩, by simp only [upd_self], rfl⟩, hL, he2, hL2, by
    show d2.used.length ≤ 7; omega⟩

theorem clean0 : Clean ⟨disk0, fun _ => none⟩ := ⟨⟨fun _ => rfl, fun _ _ h => (nomatch h), fun _ _ _ _ h => (nomatch h)⟩, fun _ => rfl⟩

/-- `C32_layer_frozen_partial`, `C36_upper_unique`, `C60_concurrent`: the commit has ended; then a file is written. -/
example : ∃ W W2 ow ow' u n m, Clean ⟨disk0, fun _ => none⟩ ∧ Sys.Steps E0 Faults.none ⟨disk0, fun _ => none⟩ W ∧ Ended W 1 (.ok (.moved ow ow')) ∧ idAt ow.tree.heap ow.ws.head = some u ∧
    Sys.Steps E0 Faults.none W W2 ∧ W2.disk.content m.upper = one ∧ W.disk.mnt n = some m ∧ Sys.Tidy E0 Faults.none ⟨disk0, fun _ => none⟩ W ∧
    ∃ x b s, W.disk.space x = some (some b) ∧ spaceLoad (.ok b) = .ok s := by
  obtain ⟨W, d, w, u, root, r, w', u', hst, hend, hL, he, hL2, _⟩ := ran
  obtain ⟨g, hs0⟩ := steady_reachable hL.past.reachable
  obtain ⟨T, hF⟩ := gets_found hs0 outw hL.gets hL.opens.head
  obtain ⟨h1, _⟩ := after_commit hs0 hF he
  obtain ⟨hg, n, hn, _⟩ := hL.opens.head
  obtain ⟨T', b, _, _, h3, h4⟩ := hL2.opens.tree
  refine ⟨W, ⟨W.disk.put u' one, W.procs⟩, r.1, r.2, u, _, _, clean0, hst, hend, ?_, .step (.refl _) (.outside (.write one hL2.mnt)), (live_write hL2 one).2.2, hL2.mnt, C71_no_failing_writes rfl hst,
    _, b, _, h3, h4⟩
  rw [h1]
  obtain ⟨o, ho, hi⟩ := (wf_of_reach (opens_reach hL.opens)).idx _ _ hg
  simp only [idAt, ho, Option.map_some, C03_hex_injective hi]

/-- After `init` has ended: no process is there any more. -/
theorem rested : ∃ (d : Disk) (w : OpenWs) (u root : UID), Sys.Steps E0 Faults.none ⟨disk0, fun _ => none⟩ ⟨d, fun _ => none⟩ ∧ Live E0 d cw w u root [root] ∧ (∀ n m, d.mnt n = some m → m.upper ≠ root) ∧
    d.HasDiff root := by
  obtain ⟨d1, r, w, u, root, he, hL, hus, hb, hN, hfr, hhd⟩ := live_init (E := E0) (d := disk0) ⟨disk0, untouched0, .refl⟩ (cwd := cw) (branch := lit "main")
    outw rfl (fits (by decide)) (by decide)
  have e1 : Exec E0 Faults.none ((Command.init (Path.abs cw (lit ".")) (lit "main")).prog E0) disk0 (.ok (.made r)) d1 := exec_ok he (.ret _ _)
  obtain ⟨t1, k1⟩ := steps_exec e1 (fun _ => none) 0 disk0 []
  have k2 : Sys.Steps E0 Faults.none ⟨disk0, fun _ => none⟩ ⟨d1, upd (upd (fun _ => none) 0 (some ⟨disk0, t1, .ret (.ok (.made r))⟩)) 0 none⟩ :=
    .step (Sys.Steps.trans (.step (.refl _) (.start 0 _ rfl)) k1) (.kill 0)
  have hz : upd (upd (fun _ => none) 0 (some (⟨disk0, t1, .ret (.ok (.made r))⟩ : Proc))) 0 none = fun _ => none := by
    rw [upd_upd]; funext i; simp only [upd]; split <;> rfl
  rw [hz] at k2
  obtain ⟨g, hs⟩ := steady_reachable hL.past.reachable
  refine ⟨d1, w, u, root, k2, hL, fun n m hm e => ?_, hL.opens.stored root ⟨_, hN.first⟩⟩
  have hh := mnt_head hs hm
  rw [e] at hh
  rcases hhd root hh with e | ⟨_, _, h, _⟩
  · have h1 := hN.first
    have h2 := hN.work
    rw [← e, h1] at h2
    simp at h2
  · cases h

/-- `C32_idle_frozen`, `C32_content_frozen_partial`, `C35_own_layer_partial`, `C36_upper_new`: `init` is done, and then another one starts. -/
example : ∃ (W1 W2 : World) (n : Str) (m : Mnt) (root : UID), Clean ⟨disk0, fun _ => none⟩ ∧ Sys.Steps E0 Faults.none ⟨disk0, fun _ => none⟩ W1 ∧ Idle W1 ∧ m.lowers = [root] ∧ W1.disk.mnt n = some m ∧
    W2.disk.mnt n = some m ∧ (∀ u ∈ m.lowers, (∀ i, W1.procs i = none) ∧ W1.disk.HasDiff u ∧ ∀ n m, W1.disk.mnt n = some m → m.upper ≠ u) ∧
    Sys.Steps E0 Faults.none W1 W2 ∧ W2.procs 0 ≠ none ∧ W2.disk.layer m.upper = W1.disk.layer m.upper ∧ W1.disk.layer m.upper ≠ none := by
  obtain ⟨d, w, u, root, hst, hL, hr, hrd⟩ := rested
  obtain ⟨g, hs⟩ := steady_reachable hL.past.reachable
  have hst2 : Sys.Steps E0 Faults.none ⟨d, fun _ => none⟩ ⟨d, upd (fun _ => none) 0 (some ⟨d, [], (Command.init (lit "/y") (lit "main")).prog E0⟩)⟩ :=
    .step (.refl _) (.start 0 (.init (lit "/y") (lit "main")) rfl)
  refine ⟨_, _, _, _, root, clean0, hst, idle_steady hs, rfl, hL.mnt, hL.mnt, ?_, hst2, by simp, rfl, ?_⟩
  · intro v hv
    rw [List.mem_singleton] at hv
    subst hv
    exact ⟨fun _ => rfl, hrd, hr⟩
  · have hst : w.tree.abs.Has u := by obtain ⟨_, n, hn, _⟩ := hL.opens.head; exact ⟨n, hn⟩
    obtain ⟨c, hc⟩ := hL.opens.stored u hst
    show d.layer u ≠ none
    rw [hc]; simp

/-- `C35_violated_shared`: the first workspace stands on the first commit alone. -/
example : ∃ (d : Disk) (n : Str) (m : Mnt) (root : UID), Reachable E0 d ∧ d.mnt n = some m ∧ m.lowers = [root] ∧ m.upper ≠ root ∧ d.HasDiff root ∧ d.content m.upper [lit "f"] = none := by
  obtain ⟨d, w, u, root, hst, hL, hr, hrd⟩ := rested
  obtain ⟨hL2, _, h3⟩ := live_write hL Content.empty
  have h1 := hr _ _ hL.mnt
  have hrs : w.tree.abs.Has root := by
    cases hL.path with
    | root h1 _ => exact ⟨_, h1⟩
    | step h1 _ _ => exact ⟨_, h1⟩
  exact ⟨_, _, _, root, hL2.past.reachable, hL2.mnt, rfl, h1, hL2.opens.stored root hrs, by show (d.put u Content.empty).content u _ = none; rw [h3]; rfl⟩

/-- `C32_violated_busy`: the mount of `/w`. -/
example : ∃ (d : Disk) (o : MountObj) (m : Mnt), Reachable E0 d ∧ o.dir = o.id.base32 ∧ d.mnt o.dir = some m ∧ d.HasDiff m.upper ∧ view ((m.upper :: m.lowers).map d.content) [lit "f"] ≠ none := by
  obtain ⟨d, w, u, root, hB⟩ := begun
  have hst : w.tree.abs.Has u := by obtain ⟨_, n, hn, _⟩ := hB.live.opens.head; exact ⟨n, hn⟩
  refine ⟨d, ⟨w.mount.id, w.mount.id.base32, none⟩, _, hB.live.past.reachable, rfl, hB.live.mnt, hB.live.opens.stored u hst, ?_⟩
  intro h
  have := hB.shows
  rw [lists_mounted hB.live.mnt] at this
  simp only [files] at this
  rw [if_neg (by simp), h] at this
  cases this

/-- `C35_write_partial`: the two workspaces of a clone, in which neither stands on the working layer of the other. -/
example : ∃ (d : Disk) (n n' : Str) (m m' : Mnt), Idle ⟨d, fun _ => none⟩ ∧ d.mnt n = some m ∧ d.mnt n' = some m' ∧ n ≠ n' ∧ m.upper ∉ m'.lowers := by
  obtain ⟨d, w, u, root, hB⟩ := begun
  have := hB.used
  obtain ⟨d2, r, w2, u2, _, hL2, _, _, _, _, w1, hL1, _, _, hne, _⟩ := live_clone neat hB.live outv (hB.free _ (by decide)) (fits (by simp)) (by omega)
  obtain ⟨g, hs⟩ := steady_reachable hL2.past.reachable
  exact ⟨d2, _, _, _, _, idle_steady hs, hL1.mnt, hL2.mnt, fun h => hne (base32_inj h), by simp [hB.new.ne]⟩

/-- Whenever a mount has come, some process has asked for it. -/
theorem asks {E : Env} {f : Faults} {p : Prog (Res CErr Out)} {d d1 : Disk} {r : Res CErr Out} (h : Exec E f p d r d1) (procs : Nat → Option Proc) (i : Nat) (st : Disk) {n : Str} {m : Mnt}
    (h1 : d1.mnt n = some m) (h0 : d.mnt n = none) (tr : Trace) :
    ∃ d2 tr' u ls k, Sys.Steps E f ⟨d, upd procs i (some ⟨st, tr, p⟩)⟩ ⟨d2, upd procs i (some ⟨st, tr', .op (.mountOverlay n u ls) k⟩)⟩ := by
  induction h generalizing tr with
  | ret a d => rw [h0] at h1; cases h1
  | @op c k d d2 d3 y a hs hk ih =>
    have hrun := Sys.Next.run (E := E) (f := f) (w := ⟨d, upd procs i (some ⟨st, tr, .op c k⟩)⟩) (i := i) (o := E.owner) (upd_self _ _ _) rfl hs
    rw [upd_upd] at hrun
    cases hm : d2.mnt n with
    | none =>
      obtain ⟨d4, tr', u, ls, k', h'⟩ := ih h1 hm (⟨c, y⟩ :: tr)
      exact ⟨d4, tr', u, ls, k', Sys.Steps.trans (.step (.refl _) hrun) h'⟩
    | some m =>
      rcases eff_mnt (step_effect hs) hm with e | ⟨e, _⟩
      · rw [h0] at e; cases e
      · cases e; exact ⟨d, tr, m.upper, m.lowers, k, .refl _⟩

/-- `C36_mount_fresh`: `init` is about to mount. -/
example : ∃ (W : World) (p : Proc) (n : Str) (u : UID) (ls : List UID) (k : Bool → Prog (Res CErr Out)), Idle ⟨disk0, fun _ => none⟩ ∧ Sys.Steps E0 Faults.none ⟨disk0, fun _ => none⟩ W ∧ W.procs 0 = some p ∧
    p.prog = .op (.mountOverlay n u ls) k := by
  obtain ⟨d1, r, w, u, root, he, hL, _⟩ := live_init (E := E0) (d := disk0) ⟨disk0, untouched0, .refl⟩ (cwd := cw) (branch := lit "main")
    outw rfl (fits (by decide)) (by decide)
  have e1 : Exec E0 Faults.none ((Command.init (Path.abs cw (lit ".")) (lit "main")).prog E0) disk0 (.ok (.made r)) d1 := exec_ok he (.ret _ _)
  obtain ⟨d2, tr', u2, ls, k, h⟩ := asks e1 (fun _ => none) 0 disk0 hL.mnt rfl []
  exact ⟨_, ⟨disk0, tr', .op (.mountOverlay _ u2 ls) k⟩, _, u2, ls, k, clean0.idle, Sys.Steps.trans (.step (.refl _) (.start 0 _ rfl)) h, by simp only [upd_self], rfl⟩

/-- `C71_apart`: an `init` and a `commit` begin. -/
example : ∃ W : World, Bare ⟨disk0, fun _ => none⟩ ∧ Sys.Apart E0 ⟨true, true, true⟩ ⟨disk0, fun _ => none⟩ W ∧ W.procs 0 ≠ none ∧ W.procs 1 ≠ none := by
  have ha : ∀ (d : Disk) (ps : Nat → Option Proc), (∀ i p, ps i = some p → p.tr = []) → World.Apart ⟨d, ps⟩ := by
    intro d ps hps i j p q _ hp _ n
    constructor
    · rintro ⟨⟨tl, h⟩, _⟩; rw [hps i p hp] at h; cases h
    · rintro ⟨⟨tl, h⟩, _⟩; rw [hps i p hp] at h; cases h
  refine ⟨⟨disk0, upd (upd (fun _ => none) 0 (some ⟨disk0, [], (Command.commit cw ci).prog E0⟩)) 1 (some ⟨disk0, [], (Command.init (lit "/y") (lit "main")).prog E0⟩)⟩, ⟨fun _ => rfl, fun _ => rfl, fun _ => rfl, fun _ => rfl⟩, ?_, by simp [upd], by simp⟩
  refine .step (.step (.refl _ (ha _ _ (fun _ _ h => nomatch h))) (.start 0 (.commit cw ci) rfl) (ha _ _ fun i p h => ?_)) (.start 1 (.init (lit "/y") (lit "main")) rfl) (ha _ _ fun i p h => ?_)
  · simp only [upd] at h
    split at h <;> cases h; rfl
  · simp only [upd] at h
    split at h
    · cases h; rfl
    · split at h <;> cases h; rfl

/-- `C84_stops`, `C84_done`: `stackcrisp init` as one process for another. -/
example : ∃ d' s, Sudo.Steps E0 Faults.none false (Sudo.start (((Cli.Order.init (lit ".") (lit "main")).command cw (lit "d")).prog E0) disk0) s ∧ s.parent = some 0 ∧ s.disk = d' ∧ d' ≠ disk0 := by
  obtain ⟨d1, r, w, u, root, he, hL, _⟩ := live_init (E := E0) (d := disk0) ⟨disk0, untouched0, .refl⟩ (cwd := cw) (branch := lit "main")
    outw rfl (fits (by decide)) (by decide)
  have e1 : Exec E0 Faults.none (((Cli.Order.init (lit ".") (lit "main")).command cw (lit "d")).prog E0) disk0 (.ok (.made r)) d1 := exec_ok he (.ret _ _)
  obtain ⟨s, h1, h2, _, h4⟩ := Sudo.steps_end (direct := false) e1 (n := 0) rfl
  refine ⟨d1, s, h1, h2, h4, fun h => ?_⟩
  have := hL.mnt
  rw [h] at this
  cases this

/-- `C60_origin`: after `branch origin/x` the reference `origin/x` is a branch of the workspace itself, and `origin/y` is nothing. -/
example : ∃ d w root, Reachable E0 d ∧ Gets E0 d cw (lit ".") w ∧ Ws.Resolves w.tree.abs w.ws.id root (lit "origin/x") root .branch ∧
    ∀ v k, ¬ Ws.Resolves w.tree.abs w.ws.id root (lit "origin/y") v k := by
  obtain ⟨d, w, u, root, hB⟩ := begun
  have := hB.used
  have h8 : validUtf8 (lit "origin/x") := valid_ascii (by decide)
  obtain ⟨d1, s, w1, he, hL1, hu1, hsame, hbr, hoth, htag, _⟩ := live_branch neat hB.live h8 (hB.noBranch (by decide)) (by omega)
  have hiff := C60_origin hL1.past.reachable outw hL1.gets root
  refine ⟨d1, w1, root, hL1.past.reachable, hL1.gets, (hiff (lit "x") root .branch).2 (Or.inr ⟨?_, ?_, rfl⟩), fun v k h => ?_⟩
  · rw [htag]; exact hB.noTag (by decide)
  · rw [hsame.1]; exact hbr
  · rcases (hiff (lit "y") v k).1 h with ⟨h, _⟩ | ⟨_, h, _⟩
    · rw [htag] at h
      have := hB.noTag (t := lit "origin/y") (by decide)
      rw [show lit "origin/" ++ lit "y" = lit "origin/y" from by decide, this] at h; cases h
    · rw [hsame.1, hoth] at h
      · have := hB.noBranch (b := lit "origin/y") (by decide)
        rw [show lit "origin/" ++ lit "y" = lit "origin/y" from by decide, this] at h; cases h
      · exact fun h => absurd (List.append_cancel_left h) (by decide)

end Story
end Verif
