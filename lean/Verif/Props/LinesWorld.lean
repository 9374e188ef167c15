import Verif.Props.Lines
import Verif.Props.CliWorld
/-!
# What a command line asks for is done (C81)

`C80` says what a command line asks for. Here: what is true of the disk after the program has reported success. Directories are relative to the working directory of the
process, which is the one that `-C` names.
-/
set_option autoImplicit false
namespace Verif
namespace Cli
open M TS Json

section
variable {E : Env} {f : Faults}

/-- What there is after an order that changes something: `d` and `w` are the disk and the workspace before, `d'` the disk after it. -/
def Done (E : Env) (date : Str) (d : Disk) (cwd : Str) (d' : Disk) : Order → Prop
  /- a workspace at the directory, on the branch, with nothing in it -/
  | .init dir b => ∃ w root u, Gets E d' cwd dir w ∧ w.ws.HeadAt w.tree u root ∧ w.ws.branch = sanitize b ∧ NewHistory w.tree.abs w.ws.id root u (sanitize b) ∧
      d'.Mounted w ∧ ∀ p, d'.lists w p = none
  /- another workspace of the same space at the directory, at the commit and on the branch of the source -/
  | .clone src dir => ∃ w u p w2 u2, Gets E d cwd src w ∧ w.ws.HeadAt w.tree u p ∧ Gets E d' cwd dir w2 ∧ w2.ws.HeadAt w2.tree u2 p ∧ w2.spaceID = w.spaceID ∧
      w2.ws.branch = w.ws.branch ∧ w2.tree.abs.tag = w.tree.abs.tag ∧ w2.tree.abs.branch = w.tree.abs.branch
  /- a commit with the message -/
  | .commit m => ∃ w u p w2 u2, Gets E d cwd (lit ".") w ∧ w.ws.HeadAt w.tree u p ∧ Gets E d' cwd (lit ".") w2 ∧ SameWs w w2 ∧ w2.ws.HeadAt w2.tree u2 u ∧
      CommitEffect w.tree.abs w.ws u u2 ⟨date, m⟩ w2.tree.abs
  /- the workspace is at what the reference means, and on the branch if it is one -/
  | .checkout ref => ∃ w u p v k w2 u2, Gets E d cwd (lit ".") w ∧ w.ws.HeadAt w.tree u p ∧ Ws.Resolves w.tree.abs w.ws.id p ref v k ∧ Gets E d' cwd (lit ".") w2 ∧
      w2.ws.HeadAt w2.tree u2 v ∧ w2.ws.id = w.ws.id ∧ w2.spaceID = w.spaceID ∧ w2.ws.branch = sanitize (branchAfter ref k) ∧
      w2.tree.abs.tag = w.tree.abs.tag ∧ w2.tree.abs.branch = w.tree.abs.branch
  /- the branch of this workspace is at what the reference means; it was not there before unless forced -/
  | .addBranch n ref force => ∃ w u p v k w2, Gets E d cwd (lit ".") w ∧ w.ws.HeadAt w.tree u p ∧ Ws.Resolves w.tree.abs w.ws.id p ref v k ∧ Gets E d' cwd (lit ".") w2 ∧
      SameWs w w2 ∧ w2.ws.HeadAt w2.tree u p ∧ (w.tree.abs.branch (w.ws.id.base32 ++ lit "/" ++ n) = none ∨ force = true) ∧
      w2.tree.abs.branch (w.ws.id.base32 ++ lit "/" ++ n) = some v ∧ (∀ b, b ≠ w.ws.id.base32 ++ lit "/" ++ n → w2.tree.abs.branch b = w.tree.abs.branch b) ∧
      w2.tree.abs.tag = w.tree.abs.tag
  /- the same of a tag -/
  | .addTag n ref force => ∃ w u p v k w2, Gets E d cwd (lit ".") w ∧ w.ws.HeadAt w.tree u p ∧ Ws.Resolves w.tree.abs w.ws.id p ref v k ∧ Gets E d' cwd (lit ".") w2 ∧
      SameWs w w2 ∧ w2.ws.HeadAt w2.tree u p ∧ (w.tree.abs.tag n = none ∨ force = true) ∧ w2.tree.abs.tag n = some v ∧
      (∀ t, t ≠ n → w2.tree.abs.tag t = w.tree.abs.tag t) ∧ w2.tree.abs.branch = w.tree.abs.branch
  /- the branches of this workspace are gone, and they were there -/
  | .deleteBranches ns r => ns = [] ∧ d' = d ∨ r = false ∧ ∃ w u p w2, Gets E d cwd (lit ".") w ∧ w.ws.HeadAt w.tree u p ∧ Gets E d' cwd (lit ".") w2 ∧ SameWs w w2 ∧
      w2.ws.HeadAt w2.tree u p ∧ ns.Nodup ∧ w.ws.branch ∉ ns ∧ (∀ n ∈ ns, w.tree.abs.branch (w.ws.id.base32 ++ lit "/" ++ n) ≠ none) ∧
      BranchesGone w.ws.id ns w.tree.abs w2.tree.abs
  /- the tags are gone, and they were there -/
  | .deleteTags ns => ∃ w u p w2, Gets E d cwd (lit ".") w ∧ w.ws.HeadAt w.tree u p ∧ Gets E d' cwd (lit ".") w2 ∧ SameWs w w2 ∧
      w2.ws.HeadAt w2.tree u p ∧ ns.Nodup ∧ (∀ n ∈ ns, w.tree.abs.tag n ≠ none) ∧ TagsGone ns w.tree.abs w2.tree.abs
  | _ => d' = d

/-- A command that succeeded has opened the workspace. -/
theorem opened_ok {α : Type} {d d' : Disk} (hd : Reachable E d) {cwd path : Str} (hout : E.Outside (Path.abs cwd path)) {k : OpenWs → M α} {r : α}
    (he : Exec E f (M.bind (getWorkspace E cwd path) k) d (.ok r) d') : ∃ w u p, Gets E d cwd path w ∧ w.ws.HeadAt w.tree u p := by
  obtain ⟨g, h⟩ := steady_reachable hd
  obtain ⟨w, d1, hg, _⟩ := exec_ok_inv he
  have hpl : ∀ t, d.user (Path.abs cwd path) = .link t → (∀ m, mountIDOf E.root cwd path (some t) ≠ .ok m) → ∃ e, mountIDOf E.root cwd path (some t) = .err e := by
    intro t ht hm
    have hg' := hg
    unfold getWorkspace at hg'
    obtain ⟨l, d1, h1, h2⟩ := exec_ok_inv hg'
    obtain ⟨m, d2, h3, _⟩ := exec_ok_inv h2
    have h3 := exec_lift_inv h3
    obtain ⟨rfl, hl⟩ := wpm_exec (linkOf_wp (off_of_outside hout)) h1
    rcases hl with rfl | ⟨_, rfl⟩
    · rw [ht] at h3; exact absurd h3 (hm m)
    · obtain ⟨e, he⟩ := leads_outside hout
      rw [he] at h3; cases h3
  obtain ⟨_, u, p, g1, _⟩ := wpm_exec (opens_of_steady' h hout hpl) hg
  exact ⟨w, u, p, gets_of_opens g1, g1.head⟩

/-- Names that JSON can store (`C16`). -/
def Order.Clean : Order → Prop
  | .addBranch n _ _ | .addTag n _ _ => validUtf8 n
  | _ => True

/-- The directories that an order is about. -/
def Order.dirs : Order → List Str
  | .init dir _ => [dir]
  | .clone src dir => [src, dir]
  | _ => [lit "."]

/-- **C81.** A command that succeeds has done what was asked for, wherever it was called and whatever happened before. -/
theorem C81_done {d d' : Disk} (hd : Reachable E d) {cwd date : Str} {o : Order} (hout : ∀ p ∈ o.dirs, E.Outside (Path.abs cwd p)) (hc : o.Clean) {r : Out}
    (he : Exec E f ((o.command cwd date).prog E) d (.ok r) d') : Done E date d cwd d' o := by
  have look : ∀ {r}, Exec E f ((Command.look cwd).prog E) d (.ok r) d' → d' = d := fun he =>
    onlyReads_exec (reads_command (o := .listTags) trivial E cwd date) he
  cases o with
  | init dir b =>
    obtain ⟨w', d1, h1, h2⟩ := exec_ok_inv he
    cases h2
    obtain ⟨w, root, u, a1, a2, a3, a4, a5, a6, _⟩ := C55_init hd (hout dir (by simp [Order.dirs])) h1
    exact ⟨w, root, u, a1, a2, a3, a4, a5, a6⟩
  | clone src dir =>
    obtain ⟨w', d1, h1, h2⟩ := exec_ok_inv he
    cases h2
    have ho := hout src (by simp [Order.dirs])
    obtain ⟨w, u, p, hg, hh⟩ := opened_ok hd ho h1
    obtain ⟨g, hs⟩ := steady_reachable hd
    obtain ⟨T, hF⟩ := gets_found hs ho hg hh
    obtain ⟨u2, ls, g', w2, _, _, _, _, h4, _, h6, h7, _, h9, _⟩ := after_clone hs hF (hout dir (by simp [Order.dirs])) h1
    exact ⟨w, u, p, w2, u2, hg, hh, gets_of_opens h4, h4.head, h6, h7, by rw [h9]; rfl, by rw [h9]; rfl⟩
  | commit m =>
    obtain ⟨x, d1, h1, h2⟩ := exec_ok_inv he
    cases h2
    have ho := hout (lit ".") (by simp [Order.dirs])
    obtain ⟨w, u, p, hg, hh⟩ := opened_ok hd ho h1
    obtain ⟨w2, u2, a1, a2, a3, a4⟩ := C27_commit_effect hd ho hg hh h1
    exact ⟨w, u, p, w2, u2, hg, hh, a1, a2, a3, a4⟩
  | checkout ref =>
    obtain ⟨x, d1, h1, h2⟩ := exec_ok_inv he
    cases h2
    have ho := hout (lit ".") (by simp [Order.dirs])
    obtain ⟨w, u, p, hg, hh⟩ := opened_ok hd ho h1
    obtain ⟨g, hs⟩ := steady_reachable hd
    obtain ⟨T, hF⟩ := gets_found hs ho hg hh
    obtain ⟨_, v, kt, u2, ls, g', w2, hR, _, _, _, _, a1, a2, a3, a4, _, a5, _⟩ := after_checkout hs hF h1
    exact ⟨w, u, p, v, kt, w2, u2, hg, hh, hR, gets_of_opens a1, a1.head, a2, a3, a4, by rw [a5]; rfl, by rw [a5]; rfl⟩
  | addBranch n ref force =>
    obtain ⟨s, h1⟩ := C70_tags.edit_ok he
    have ho := hout (lit ".") (by simp [Order.dirs])
    obtain ⟨w, u, p, hg, hh⟩ := opened_ok hd ho h1
    obtain ⟨w2, v, k, a1, a2, a3, a4, a5, a6, a7, a8, _⟩ := C59_branch hd ho hg hh hc h1
    exact ⟨w, u, p, v, k, w2, hg, hh, a4, a1, a2, a3, a5, a6, a7, a8⟩
  | addTag n ref force =>
    obtain ⟨s, h1⟩ := C70_tags.edit_ok he
    have ho := hout (lit ".") (by simp [Order.dirs])
    obtain ⟨w, u, p, hg, hh⟩ := opened_ok hd ho h1
    obtain ⟨w2, v, k, a1, a2, a3, a4, a5, a6, a7, a8, _⟩ := C59_tag hd ho hg hh hc h1
    exact ⟨w, u, p, v, k, w2, hg, hh, a4, a1, a2, a3, a5, a6, a7, a8⟩
  | deleteTags ns =>
    obtain ⟨s, h1⟩ := C70_tags.edit_ok he
    have ho := hout (lit ".") (by simp [Order.dirs])
    obtain ⟨w, u, p, hg, hh⟩ := opened_ok hd ho h1
    obtain ⟨a1, a2, w2, a3, a4, a5, a6, _⟩ := C70_tags hd ho hg hh he
    exact ⟨w, u, p, w2, hg, hh, a3, a4, a5, a1, a2, a6⟩
  | deleteBranches ns remotes =>
    obtain ⟨s, h1⟩ := C70_tags.edit_ok he
    have ho := hout (lit ".") (by simp [Order.dirs])
    obtain ⟨w, u, p, hg, hh⟩ := opened_ok hd ho h1
    cases remotes with
    | false =>
      obtain ⟨a1, a2, a3, w2, a4, a5, a6, a7, _⟩ := C70_branches hd ho hg hh he
      exact Or.inr ⟨rfl, w, u, p, w2, hg, hh, a4, a5, a6, a1, a2, a3, a7⟩
    | true =>
      refine Or.inl ?_
      obtain ⟨g, hs⟩ := steady_reachable hd
      obtain ⟨T, hF⟩ := gets_found hs ho hg hh
      obtain ⟨_, k1, k2⟩ := wpm_exec (editCmd_wp (f := f) hF.opens (by simp [Edit.Plain])) h1
      cases ns with
      | nil =>
        refine ⟨rfl, ?_⟩
        rcases k2 with k2 | ⟨T', q, _, _⟩
        · exact k2.2
        · obtain ⟨w1, d1, h3, h4⟩ := exec_ok_inv h1
          cases h4
          exact onlyReads_exec (onlyReads_getWorkspace E cwd (lit ".")) h3
      | cons n ns =>
        cases k1 with
        | cons h _ => 
          cases h with
          | deleteGlobal h => exact absurd (C60_no_global_branch hd ho hg n) h
  | _ => exact look he

/-- **C81.** From the words to the disk: a process that runs as root and succeeds does what its words ask for, in the directory that `-C` names and with the data directory that
`--data-root` names. -/
theorem C81_line {pre rest : List Str} {s0 : List (Str × Str)} (c : Sub) (h : Written globalFlags pre s0 [] false) {cwd : Str} {j : Job}
    (hj : asRoot cwd (pre ++ c.name :: rest) = .ok j) (_hE : E.root = j.root) {d d' : Disk} (hd : Reachable E d) {date : Str}
    (hout : ∀ p ∈ j.order.dirs, E.Outside (Path.abs j.cwd p)) (hc : j.order.Clean) {r : Out} (he : Exec E f ((j.order.command j.cwd date).prog E) d (.ok r) d') :
    ∃ s a b, Written c.flags (pre ++ rest) s a b ∧ Means cwd s c a j ∧ Done E date d j.cwd d' j.order := by
  obtain ⟨s, a, b, h1, h2⟩ := (C80_job c h cwd j).1 hj
  exact ⟨s, a, b, h1, h2, C81_done hd hout hc he⟩

end

/-! ## A concrete case -/
open Story

/-- `--data-root /d -C w tag v1` after `init`, called from the directory above: the tag is at the last commit. -/
example : ∃ d d' w root r j, Calmly E0 d ∧ Gets E0 d cw (lit ".") w ∧ asRoot (lit "/") [lit "--data-root", lit "/d", lit "-C", lit "w", lit "tag", lit "v1"] = .ok j ∧ j.cwd = cw ∧ j.root = E0.root ∧
    Exec E0 Faults.none ((j.order.command j.cwd []).prog E0) d (.ok r) d' ∧ ∃ w2, Gets E0 d' cw (lit ".") w2 ∧ w2.tree.abs.tag (lit "v1") = some root ∧ w.tree.abs.tag (lit "ROOT") = some root := by
  obtain ⟨d, w, u, root, hB⟩ := begun
  have := hB.used
  have hno : w.tree.abs.tag (lit "v1") = none := by
    cases h : w.tree.abs.tag (lit "v1") with
    | none => rfl
    | some v => exact absurd ((hB.new.tags _ _).1 h).1 (by decide)
  obtain ⟨r, d', he⟩ := exec_total (E := E0) (f := Faults.none) (editCmd_draws E0 cw [.addTag (lit "v1") (lit "HEAD") false]) d (by omega)
  obtain ⟨s, rfl⟩ := (C24_accepted_iff hB.live.past.reachable outw hB.live.gets hB.live.opens.head rfl (e := .addTag (lit "v1") (lit "HEAD") false) plainHEAD he).2
    ⟨_, .addTag (v := root) (k := .commit) .head (Or.inl hno)⟩
  have hx : Exec E0 Faults.none (((Order.addTag (lit "v1") (lit "HEAD") false).command cw []).prog E0) d (.ok (.edited s)) d' := exec_trans he (.ret _ _)
  obtain ⟨w1, u1, p1, v, k, w2, a1, a2, a3, a4, _, _, _, a8, _⟩ := C81_done hB.live.past.reachable (o := .addTag (lit "v1") (lit "HEAD") false) (by
    intro p hp
    obtain rfl := List.mem_singleton.1 hp
    exact outw) (valid_ascii (by decide)) hx
  obtain rfl := gets_unique hB.live.past.reachable outw a1 hB.live.gets
  obtain ⟨rfl, rfl⟩ := headAt_unique (wf_of_reach (gets_reach hB.live.past.reachable outw a1)) a2 hB.live.opens.head
  have hv : v = p1 := by
    cases a3 with
    | head => rfl
    | _ => contradiction
  subst hv
  exact ⟨d, d', w1, _, _, _, hB.live.past, a1, rfl, rfl, rfl, hx, w2, a4, a8, (hB.new.tags _ _).2 ⟨rfl, rfl⟩⟩

end Cli
end Verif
