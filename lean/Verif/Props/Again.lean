import Verif.Props.Between
import Verif.Props.Later
import Verif.Props.Limit
import Verif.Props.Live
import Verif.Props.Refused
/-!
# Repeating a commit that was cut short

A commit was killed, or a call of it failed. If the path still leads to a workspace, the commit can be repeated: it succeeds, no file is lost, and what was the working
layer is a commit. If the first attempt had come far enough, it counts, and the second one is a commit of its own. There is a moment at which a kill leaves nothing at the
path (C85); then the commit cannot be repeated.
-/
set_option autoImplicit false
namespace Verif
open M TS Json

/-- `u` is a commit on `p` with this date and message. -/
def Says (a : ATree) (u p : UID) (ci : CommitInfo) : Prop :=
  ∃ n, a.node u = some n ∧ n.parent = some p ∧ n.anno (lit "commit-date") = some (sanitize ci.date) ∧ n.anno (lit "commit-message") = some (sanitize ci.message)

/-- What a commit `ci` that was cut short and its repetition `ci'` have done to the history `a` in which `u`, on `p`, is the working layer of the workspace `ws`: the next
working layer is on top of `q`. Either the repetition has made the commit, or both have made one. -/
structure TwiceEffect (a : ATree) (ws : Ws) (u p q : UID) (ci ci' : CommitInfo) (a' : ATree) : Prop where
  commit : q = u ∧ Says a' u p ci' ∨ ¬ a.Has q ∧ Says a' u p ci ∧ Says a' q u ci'
  /-- No other layer changes. -/
  others : ∀ v n, v ≠ u → a.node v = some n → a'.node v = some n
  root : a'.root = a.root
  tags : a'.tag = a.tag
  moved : ws.branch ≠ [] → a'.branch (ws.id.base32 ++ lit "/" ++ ws.branch) = some q
  branches : ∀ b, (ws.branch = [] ∨ b ≠ ws.id.base32 ++ lit "/" ++ ws.branch) → a'.branch b = a.branch b

section
variable {E : Env} {f : Faults}

/-- A history with a commit that comes back from its file. -/
theorem commit_back {d : Disk} {cwd path : Str} {w : OpenWs} {u p : UID} (hd : Reachable E d) (hout : E.Outside (Path.abs cwd path)) (hg : Gets E d cwd path w)
    (hh : w.ws.HeadAt w.tree u p) (hmay : MayCommit w u) {u' : UID} (hn : ¬ w.tree.abs.Has u') {ci : CommitInfo} {b : ATree}
    (hb : ComesBack (w.tree.abs.commit w.ws.onBranch u u' ci.date ci.message) b) : CommitEffect w.tree.abs w.ws u u' ci b := by
  obtain ⟨g, hs⟩ := steady_reachable hd
  obtain ⟨T, hF⟩ := gets_found hs hout hg hh
  have hu8 := comesBack_is_utf8 hF.back
  have hbr : ∀ x, w.ws.onBranch = some x → validUtf8 x := fun x hx => by
    obtain ⟨h, hb, _⟩ := follows_iff.2 hmay x hx
    exact hu8.branch x h hb
  have htr : b = w.tree.abs.commit w.ws.onBranch u u' (sanitize ci.date) (sanitize ci.message) := by
    rw [comesBack_named hb (named_commit (utf8_named hu8) hbr), tidy_commit, tidy_utf8 hu8]
  obtain ⟨_, n, e, _⟩ := hh
  rw [htr]; exact commitEffect ⟨n, e⟩ hn

theorem effect_says {a a' : ATree} {ws : Ws} {u u2 p : UID} {ci : CommitInfo} (h : CommitEffect a ws u u2 ci a') (hp : Below a u p) : Says a' u p ci := by
  obtain ⟨n, n', e1, e2, e3, _, e5, e6, _⟩ := h.commit
  obtain ⟨m, h1, h2⟩ := hp
  rw [e1] at h1; cases h1
  exact ⟨n', e2, e3.trans h2, e5, e6⟩

/-- **C113.** A commit is killed at any moment, or any call of it fails. If the history can be read then, the path leads to a workspace, and no record has lost its mount,
repeating the commit succeeds on a system that works, unless the options of the mount get too long. It is the same workspace, with a new working layer. What was its working layer is a commit
with the message of the repetition, or it is one with the message of the first attempt and the repetition has added a commit to it. All else in the history is as it was. -/
theorem C113_repeated {d d1 d2 : Disk} (hd : Legacy E d) (hf : f.rep = false) {cwd : Str} (hout : E.Outside (Path.abs cwd (lit "."))) {w : OpenWs}
    (hg : Gets E d cwd (lit ".") w) {u p : UID} (hh : w.ws.HeadAt w.tree u p) (hmay : MayCommit w u) {ls : List UID} (hls : w.tree.abs.Path u ls)
    (hfit : E.Fits (ls.length + 1)) {ci : CommitInfo} (h : Stops E f (commitCmd E cwd ci) d d1)
    (hm : ∀ n b i, d1.info n = some b → unmarshalInfo b = some i → d1.mdir n ≠ none) {s : TS} (hsp : d1.loads w.spaceDir = .ok s)
    {w1 : OpenWs} (hg1 : Gets E d1 cwd (lit ".") w1) (hlink : ∃ n m c, d1.user w1.ws.path = .link (E.mountPath n) ∧ d1.mdir n = some m ∧ m.merged = some c)
    {ci' : CommitInfo} {r : Res CErr (OpenWs × OpenWs)} (he : Exec E Faults.none (commitCmd E cwd ci') d1 r d2) :
    (∃ x, r = .ok x) ∧ ∃ w2 u2 q, Gets E d2 cwd (lit ".") w2 ∧ SameWs w w2 ∧ w2.ws.HeadAt w2.tree u2 q ∧ ¬ w.tree.abs.Has u2 ∧
      TwiceEffect w.tree.abs w.ws u p q ci ci' w2.tree.abs ∧ (d.Mounted w → f.busy = false → f.io = false → d2.lists w2 = d.lists w) := by
  have hr := reachable_legacy hd
  have hst : Stops E f ((Command.commit cwd ci).prog E) d d1 := stops_bind h
  have hr1 := reachable_legacy (C77_killed hd hf hst hm)
  -- the repetition, where the working layer is still the same
  have once : ∀ (ls1 : List UID), w1.tree.abs.Path u ls1 → ls1.length ≤ ls.length + 1 → w1.ws.HeadAt w1.tree u p → SameWs w w1 → MayCommit w1 u →
      (∀ v n, v ≠ u → w.tree.abs.node v = some n → w1.tree.abs.node v = some n) → w1.tree.abs.root = w.tree.abs.root → w1.tree.abs.tag = w.tree.abs.tag →
      (∀ b, (w.ws.branch = [] ∨ b ≠ w.ws.id.base32 ++ lit "/" ++ w.ws.branch) → w1.tree.abs.branch b = w.tree.abs.branch b) →
      (∀ v, w.tree.abs.Has v → w1.tree.abs.Has v) → (d.Mounted w → d1.Mounted w1 ∧ d1.lists w1 = d.lists w) →
      (∃ x, r = .ok x) ∧ ∃ w2 u2 q, Gets E d2 cwd (lit ".") w2 ∧ SameWs w w2 ∧ w2.ws.HeadAt w2.tree u2 q ∧ ¬ w.tree.abs.Has u2 ∧
        TwiceEffect w.tree.abs w.ws u p q ci ci' w2.tree.abs ∧ (d.Mounted w → f.busy = false → f.io = false → d2.lists w2 = d.lists w) := by
    intro ls1 k1 k2 k3 k4 k5 k6 k7 k8 k9 k10 k11
    obtain ⟨x, rfl⟩ := (C28_accepted_iff hr1 hout hg1 k3 k1 (fits_mono k2 hfit) hlink he).2 k5
    obtain ⟨w2, u2, a1, a2, a3, a4⟩ := C27_commit_effect hr1 hout hg1 k3 he
    refine ⟨⟨x, rfl⟩, w2, u2, u, a1, ⟨a2.1.trans k4.1, a2.2.1.trans k4.2.1, a2.2.2.trans k4.2.2⟩, a3, fun hx => a4.fresh (k10 _ hx),
      ⟨Or.inl ⟨rfl, effect_says a4 k3.2⟩, fun v n hv hn => ?_, a4.root.trans k7, a4.tags.trans k8, fun hb => ?_, fun b hb => ?_⟩, fun hmo _ _ => ?_⟩
    · exact (a4.others v hv (by rintro rfl; exact a4.fresh (k10 _ ⟨n, hn⟩))).trans (k6 v n hv hn)
    · have := a4.moved (by rw [k4.2.1]; exact hb)
      rwa [k4.1, k4.2.1] at this
    · exact (a4.branches b (by rw [k4.1, k4.2.1]; exact hb)).trans (k9 b hb)
    · obtain ⟨m1, m2⟩ := k11 hmo
      obtain ⟨w3, b1, _, b3, _⟩ := C27_commit_keeps_files hr1 hout hg1 m1 k3 he
      have hr2 : Reachable E d2 := reachable_next (f := Faults.none) hr1 rfl (a := .commit cwd ci') hout (.commit he)
      rw [gets_unique hr2 hout a1 b1, b3, m2]
  rcases C85_commit_partial hr hout hg hh h with ⟨e, h1⟩ | h1 | ⟨v1, u', hn, h1, hb⟩ | ⟨v1, u', hn, h1, hbr, hb, hl⟩
  · rw [hsp] at h1; cases h1
  · obtain rfl := gets_unique hr1 hout hg1 h1.1
    obtain ⟨_, s2, s3, s4, s5, s6⟩ := h1
    exact once ls hls (by omega) s4 s2 hmay (fun _ _ _ h => h) rfl rfl (fun _ _ => rfl) (fun _ h => h) fun hmo => ⟨by rw [Disk.Mounted, s5]; exact hmo, s6⟩
  · obtain rfl := gets_unique hr1 hout hg1 h1.1
    obtain ⟨_, s2, s3, s4, s5, s6⟩ := h1
    have hE := commit_back hr hout hg hh hmay hn hb
    have hhas : ∀ v, w.tree.abs.Has v → w1.tree.abs.Has v := by
      rintro v ⟨n, hv⟩
      by_cases e : v = u
      · subst e; obtain ⟨_, n', _, e2, _⟩ := hE.commit; exact ⟨n', e2⟩
      · exact ⟨n, (hE.others v e (by rintro rfl; exact hn ⟨n, hv⟩)).trans hv⟩
    obtain ⟨_, n', _, e2, _⟩ := hE.commit
    refine once ls (commitEffect_path hE hls) (by omega) s4 s2 ?_ (fun v n hv h => (hE.others v hv (by rintro rfl; exact hn ⟨n, h⟩)).trans h) hE.root hE.tags hE.branches hhas
      fun hmo => ⟨by rw [Disk.Mounted, s3, s5]; exact hmo, s6⟩
    by_cases e : w.ws.branch = []
    · exact Or.inl (s2.2.1.trans e)
    · refine Or.inr ⟨u, ?_, .refl e2⟩
      rw [s2.1, s2.2.1]; exact hE.moved e
  · obtain ⟨hgo, g1, g2, g3, g4, g5, _⟩ := h1
    have hg' : Gets E d1 cwd (lit ".") v1 := by
      rcases hgo with h | ⟨h, _⟩
      · exact h
      · obtain ⟨_, hs⟩ := steady_reachable hr
        obtain ⟨T, hF⟩ := gets_found hs hout hg hh
        exact absurd hg1 (gap_closed hout (by rw [← hF.opens.path]; exact h) w1)
    obtain rfl := gets_unique hr1 hout hg1 hg'
    have hE := commit_back hr hout hg hh hmay hn hb
    have hP : w1.tree.abs.Path u' (u' :: ls) := .step hE.next rfl (commitEffect_path hE hls)
    obtain ⟨_, n', _, e2, _⟩ := hE.commit
    have hsame : SameWs w w1 := ⟨g1, hbr, g2⟩
    have hmay1 : MayCommit w1 u' := by
      by_cases e : w.ws.branch = []
      · exact Or.inl (hbr.trans e)
      · refine Or.inr ⟨u, ?_, .step hE.next rfl (.refl e2)⟩
        rw [g1, hbr]; exact hE.moved e
    have hhas : ∀ v, w.tree.abs.Has v → w1.tree.abs.Has v := by
      rintro v ⟨n, hv⟩
      by_cases e : v = u
      · subst e; exact ⟨n', e2⟩
      · exact ⟨n, (hE.others v e (by rintro rfl; exact hn ⟨n, hv⟩)).trans hv⟩
    have hu : w.tree.abs.Has u := by obtain ⟨_, n, e, _⟩ := hh; exact ⟨n, e⟩
    have hne : u ≠ u' := by rintro rfl; exact hn hu
    obtain ⟨x, rfl⟩ := (C28_accepted_iff hr1 hout hg1 g4 hP hfit hlink he).2 hmay1
    obtain ⟨w2, u2, a1, a2, a3, a4⟩ := C27_commit_effect hr1 hout hg1 g4 he
    have hfresh : ¬ w.tree.abs.Has u2 := fun hx => a4.fresh (hhas _ hx)
    refine ⟨⟨x, rfl⟩, w2, u2, u', a1, ⟨a2.1.trans hsame.1, a2.2.1.trans hsame.2.1, a2.2.2.trans hsame.2.2⟩, a3, hfresh,
      ⟨Or.inr ⟨hn, ?_, effect_says a4 g4.2⟩, fun v n hv h => ?_, a4.root.trans hE.root, a4.tags.trans hE.tags, fun hb => ?_, fun b hb => ?_⟩, fun hmo f1 f2 => ?_⟩
    · obtain ⟨n, q1, q2⟩ := effect_says hE hh.2
      exact ⟨n, (a4.others u hne (by rintro rfl; exact hfresh hu)).trans q1, q2⟩
    · exact (a4.others v (by rintro rfl; exact hn ⟨n, h⟩) (by rintro rfl; exact hfresh ⟨n, h⟩)).trans ((hE.others v hv (by rintro rfl; exact hn ⟨n, h⟩)).trans h)
    · have := a4.moved (by rw [hbr]; exact hb)
      rwa [g1, hbr] at this
    · exact (a4.branches b (by rw [g1, hbr]; exact hb)).trans (hE.branches b hb)
    · obtain ⟨w3, b1, _, b3, _⟩ := C27_commit_keeps_files hr1 hout hg1 g5 g4 he
      have hr2 : Reachable E d2 := reachable_next (f := Faults.none) hr1 rfl (a := .commit cwd ci') hout (.commit he)
      rw [gets_unique hr2 hout a1 b1, b3, hl hmo f1 f2]

/-- A key means the same after a layer was added that it does not name. -/
theorem add_resolves {a : ATree} {i p p' v u' : UID} {q : Option UID} {key : Str} {kt : KeyType} (h : Ws.Resolves a i p key v kt) (hp : p' = p ∨ p' = v)
    (hk : ∀ x, Spells key x → a.Has x) (hn : ¬ a.Has u') : Ws.Resolves (a.add q u' (fun _ => none) (fun _ => none)) i p' key v kt := by
  have hsp : (∀ x, Spells key x → ¬ a.Has x) → ∀ x, Spells key x → ¬ (a.add q u' (fun _ => none) (fun _ => none)).Has x := fun h x hx => absurd (hk x hx) (h x hx)
  cases h with
  | head => rcases hp with rfl | rfl <;> exact .head
  | id h1 h2 h3 => exact .id h1 h2 (add_has.2 (Or.inr h3))
  | tag h1 h2 h3 => exact .tag h1 (hsp h2) h3
  | full h1 h2 h3 h4 => exact .full h1 (hsp h2) h3 h4
  | own h1 h2 h3 h4 h5 => exact .own h1 (hsp h2) h3 h4 h5
  | global h1 h2 h3 h4 h5 h6 h7 => exact .global h1 (hsp h2) h3 h4 h5 h6 h7

/-- **C113.** The same for a checkout, with a key that is not the ID of a layer there is none of: the repetition ends where the checkout would have ended. -/
theorem C113_checkout_repeated {d d1 d2 : Disk} (hd : Legacy E d) (hf : f.rep = false) {cwd key : Str} (hkey : PlainKey key) (hout : E.Outside (Path.abs cwd (lit ".")))
    {w : OpenWs} (hg : Gets E d cwd (lit ".") w) {u p : UID} (hh : w.ws.HeadAt w.tree u p) (hk : ∀ x, Spells key x → w.tree.abs.Has x) {v : UID} {kt : KeyType}
    (hR : Ws.Resolves w.tree.abs w.ws.id p key v kt) {ls : List UID} (hls : w.tree.abs.Path v ls) (hfit : E.Fits ls.length)
    (h : Stops E f (checkoutCmd E cwd key) d d1) (hm : ∀ n b i, d1.info n = some b → unmarshalInfo b = some i → d1.mdir n ≠ none) {s : TS}
    (hsp : d1.loads w.spaceDir = .ok s) {w1 : OpenWs} (hg1 : Gets E d1 cwd (lit ".") w1)
    (hlink : ∃ n m c, d1.user w1.ws.path = .link (E.mountPath n) ∧ d1.mdir n = some m ∧ m.merged = some c)
    {r : Res CErr (OpenWs × OpenWs)} (he : Exec E Faults.none (checkoutCmd E cwd key) d1 r d2) :
    (∃ x, r = .ok x) ∧ ∃ w2 u2, Gets E d2 cwd (lit ".") w2 ∧ w2.ws.id = w.ws.id ∧ w2.spaceID = w.spaceID ∧ w2.ws.branch = sanitize (branchAfter key kt) ∧
      w2.ws.HeadAt w2.tree u2 v ∧ ¬ w.tree.abs.Has u2 ∧ d2.Mounted w2 ∧ (f.busy = false → f.io = false → d2.lists w2 = files (ls.map d.content)) ∧
      (∀ x n, w.tree.abs.node x = some n → w2.tree.abs.node x = some n) ∧ w2.tree.abs.branch = w.tree.abs.branch ∧ w2.tree.abs.tag = w.tree.abs.tag := by
  have hr := reachable_legacy hd
  have hst : Stops E f ((Command.checkout cwd key).prog E) d d1 := stops_bind h
  have hr1 := reachable_legacy (C77_killed hd hf hst hm)
  obtain ⟨g, hs⟩ := steady_reachable hr
  obtain ⟨T, hF⟩ := gets_found hs hout hg hh
  have hu8 := comesBack_is_utf8 hF.back
  have back : ∀ {v' u' : UID} {b : ATree}, ComesBack (w.tree.abs.add (some v') u' (fun _ => none) (fun _ => none)) b → b = w.tree.abs.add (some v') u' (fun _ => none) (fun _ => none) := by
    intro v' u' b hb
    rw [comesBack_named hb (named_add (utf8_named hu8)), tidy_add, tidy_utf8 hu8]
  -- the repetition
  have again : ∀ u1 p1, w1.ws.HeadAt w1.tree u1 p1 → w1.ws.id = w.ws.id → w1.spaceID = w.spaceID → Ws.Resolves w1.tree.abs w1.ws.id p1 key v kt → w1.tree.abs.Path v ls →
      (∀ x n, w.tree.abs.node x = some n → w1.tree.abs.node x = some n) → w1.tree.abs.branch = w.tree.abs.branch → w1.tree.abs.tag = w.tree.abs.tag →
      (∃ x, r = .ok x) ∧ ∃ w2 u2, Gets E d2 cwd (lit ".") w2 ∧ w2.ws.id = w.ws.id ∧ w2.spaceID = w.spaceID ∧ w2.ws.branch = sanitize (branchAfter key kt) ∧
        w2.ws.HeadAt w2.tree u2 v ∧ ¬ w.tree.abs.Has u2 ∧ d2.Mounted w2 ∧ (f.busy = false → f.io = false → d2.lists w2 = files (ls.map d.content)) ∧
        (∀ x n, w.tree.abs.node x = some n → w2.tree.abs.node x = some n) ∧ w2.tree.abs.branch = w.tree.abs.branch ∧ w2.tree.abs.tag = w.tree.abs.tag := by
    intro u1 p1 k1 k2 k3 k4 k5 k6 k7 k8
    obtain ⟨x, rfl⟩ := (C61_checkout_accepted_iff hr1 hkey hout hg1 k1 (fun v' kt' ls' a b => by
      obtain ⟨rfl, _⟩ := Ws.resolves_unique a k4
      rw [Ws.path_unique b k5]; exact hfit) hlink he).2 ⟨v, kt, k4⟩
    obtain ⟨g1, hs1⟩ := steady_reachable hr1
    obtain ⟨T1, hF1⟩ := gets_found hs1 hout hg1 k1
    obtain ⟨_, v', kt', u2, ls', g', w2, b1, b2, _, _, b3, b4, b5, b6, b7, b8, b9, b10⟩ := after_checkout hs1 hF1 he
    obtain ⟨rfl, rfl⟩ := Ws.resolves_unique b1 k4
    obtain rfl := Ws.path_unique b3 k5
    have hne : ∀ x n, w.tree.abs.node x = some n → x ≠ u2 := by rintro x n hx rfl; exact b8 ⟨n, k6 _ n hx⟩
    refine ⟨⟨x, rfl⟩, w2, u2, gets_of_opens b4, b5.trans k2, b6.trans k3, b7, b4.head, fun ⟨n, hx⟩ => hne u2 n hx rfl, by rw [Disk.Mounted, b10.mnt]; simp,
      fun f1 f2 => ?_, fun x n hx => ?_, ?_, ?_⟩
    · rw [lists_fresh b10 (path_stored hF1.opens b3)]
      congr 1
      refine List.map_congr_left fun z hz => ?_
      obtain ⟨c, hc⟩ := hF.opens.stored z (path_has hls z hz)
      have : d1.layer z = d.layer z := by
        refine (wp_stops (checkoutCmd_wp hF.opens hkey hF.mdir) (mid_litter (litter_refl d)) h).layer z (by rw [hc]; simp) ?_
        rintro ⟨h1, _⟩
        simp [f1, f2] at h1
      simp only [Disk.content, this]
    · rw [b9]; exact (upd_ne _ _ (hne x n hx)).trans (k6 x n hx)
    · rw [b9]; exact k7
    · rw [b9]; exact k8
  have added : ∀ {u' : UID}, ¬ w.tree.abs.Has u' → ∀ x n, w.tree.abs.node x = some n → (w.tree.abs.add (some v) u' (fun _ => none) (fun _ => none)).node x = some n :=
    fun hn x n hx => (upd_ne _ _ (by rintro rfl; exact hn ⟨n, hx⟩)).trans hx
  rcases C85_checkout_partial hr hout hg hh h with ⟨e, h1⟩ | h1 | ⟨v', kt', hR', ⟨v1, u', hn, h1, hb⟩ | ⟨v1, u', hn, h1, hbr, hb⟩⟩
  · rw [hsp] at h1; cases h1
  · obtain rfl := gets_unique hr1 hout hg1 h1.1
    exact again u p hh rfl rfl hR hls (fun _ _ h => h) rfl rfl
  · obtain ⟨rfl, rfl⟩ := Ws.resolves_unique hR' hR
    obtain rfl := gets_unique hr1 hout hg1 h1.1
    have hb := back hb
    exact again u p h1.2.2.2.1 h1.2.1.1 h1.2.1.2.2 (by rw [hb, h1.2.1.1]; exact add_resolves hR (Or.inl rfl) hk hn)
      (by rw [hb]; exact extends_path (extends_add (S := fun _ => True) hn) hls) (by rw [hb]; exact added hn) (by rw [hb]; rfl) (by rw [hb]; rfl)
  · obtain ⟨rfl, rfl⟩ := Ws.resolves_unique hR' hR
    obtain ⟨hgo, g1, g2, g3, g4, g5, _⟩ := h1
    have hg' : Gets E d1 cwd (lit ".") v1 := by
      rcases hgo with h | ⟨h, _⟩
      · exact h
      · exact absurd hg1 (gap_closed hout (by rw [← hF.opens.path]; exact h) w1)
    obtain rfl := gets_unique hr1 hout hg1 hg'
    have hb := back hb
    exact again u' v' g4 g1 g2 (by rw [hb, g1]; exact add_resolves hR (Or.inr rfl) hk hn)
      (by rw [hb]; exact extends_path (extends_add (S := fun _ => True) hn) hls) (by rw [hb]; exact added hn) (by rw [hb]; rfl) (by rw [hb]; rfl)

/-- **C113 does not hold.** Every commit that succeeds can be killed so that no repetition succeeds. None of them changes anything. -/
theorem C113_violated_gone {d d' : Disk} (hd : Reachable E d) {cwd : Str} (hout : E.Outside (Path.abs cwd (lit "."))) {w : OpenWs} (hg : Gets E d cwd (lit ".") w)
    {u p : UID} (hh : w.ws.HeadAt w.tree u p) {ci : CommitInfo} {r : OpenWs × OpenWs} (he : Exec E f (commitCmd E cwd ci) d (.ok r) d') :
    ∃ d1, Stops E f (commitCmd E cwd ci) d d1 ∧ ∀ ci' r' d2, Exec E Faults.none (commitCmd E cwd ci') d1 r' d2 → (∀ x, r' ≠ .ok x) ∧ d2 = d1 := by
  obtain ⟨d1, h1, _, h3⟩ := C85_violated_commit hd hout hg hh he
  refine ⟨d1, h1, fun ci' r' d2 hx => ?_⟩
  unfold commitCmd at hx
  obtain ⟨a, d3, k1, k2⟩ := exec_bind hx
  obtain rfl := onlyReads_exec (onlyReads_getWorkspace E cwd (lit ".")) k1
  cases a with
  | ok w0 => exact absurd k1 (h3 w0)
  | err e => cases k2; exact ⟨fun x hx => (nomatch hx), rfl⟩
  | panic => cases k2; exact ⟨fun x hx => (nomatch hx), rfl⟩
  | diverge => cases k2; exact ⟨fun x hx => (nomatch hx), rfl⟩

/-- **C113 does not hold.** A commit that can succeed can be killed so that its repetition leaves a layer in the history that is neither a commit nor the working layer
of the workspace: it is on top of the commit, beside the working layer. -/
theorem C113_violated_extra {d : Disk} (hd : Legacy E d) {cwd : Str} (hout : E.Outside (Path.abs cwd (lit "."))) {w : OpenWs}
    (hg : Gets E d cwd (lit ".") w) (hm : d.Mounted w) {u p : UID} (hh : w.ws.HeadAt w.tree u p) (hmay : MayCommit w u) {ls : List UID} (hls : w.tree.abs.Path u ls)
    (hfit : E.Fits ls.length) (hlink : ∃ n m c, d.user w.ws.path = .link (E.mountPath n) ∧ d.mdir n = some m ∧ m.merged = some c)
    (hused : d.used.length + 4 < 2 ^ 128) (ci : CommitInfo) :
    ∃ d1 u1, Stops E Faults.none (commitCmd E cwd ci) d d1 ∧ ¬ w.tree.abs.Has u1 ∧ (∃ r d2, Exec E Faults.none (commitCmd E cwd ci) d1 r d2) ∧
      ∀ r d2, Exec E Faults.none (commitCmd E cwd ci) d1 r d2 → (∃ x, r = .ok x) ∧ ∃ w2 u2, Gets E d2 cwd (lit ".") w2 ∧ w2.ws.HeadAt w2.tree u2 u ∧ u2 ≠ u1 ∧
        w2.tree.abs.node u1 = some ⟨some u, fun _ => none, fun _ => none⟩ := by
  have hr := reachable_legacy hd
  obtain ⟨d1, w1, u1, h1, h2, h3, h4, h5, h6, _, h8, h8', _⟩ := C32_violated_killed hr hout hg hm hh hmay hls hfit hlink (by omega) ci
  have hst : Stops E Faults.none ((Command.commit cwd ci).prog E) d d1 := stops_bind h1
  obtain ⟨⟨g, hs⟩, _⟩ := legacy_sound hd
  have hrec : ∀ n b i, d1.info n = some b → unmarshalInfo b = some i → d1.mdir n ≠ none := by
    intro n b i hb hi
    rw [(h8 n).1] at hb
    rcases hs.info n b hb with e | ⟨r, _, hr⟩
    · rw [hi] at e; cases e
    · rw [(h8 n).2 hr.mdir]; exact hr.mdir
  have hL := C77_killed hd rfl hst hrec
  have hused1 : d1.used.length ≤ d.used.length + 2 := stops_used (commitCmd_draws E cwd ci) h1
  have hpath : w1.ws.path = w.ws.path := by
    obtain ⟨_, _, _, hF⟩ := found_of_gets (legacy_sound hL).1.choose_spec hout h2
    obtain ⟨_, _, _, hF0⟩ := found_of_gets hs hout hg
    rw [hF.opens.path, hF0.opens.path]
  have hlink1 : ∃ n m c, d1.user w1.ws.path = .link (E.mountPath n) ∧ d1.mdir n = some m ∧ m.merged = some c := by
    obtain ⟨n, m, c, e1, e2, e3⟩ := hlink
    exact ⟨n, m, c, by rw [h8', hpath]; exact e1, by rw [(h8 n).2 (by rw [e2]; simp)]; exact e2, e3⟩
  refine ⟨d1, u1, h1, h4.fresh, exec_total (commitCmd_draws E cwd ci) d1 (by omega), fun r d2 he => ?_⟩
  obtain ⟨a, w2, u2, b1, _, b3, b4⟩ := C77_commit hd rfl hst hrec hout h2 h5 h6 (commitEffect_path h4 hls) hfit hlink1 he
  have hne : u1 ≠ u2 := by rintro rfl; exact b4.fresh ⟨_, h4.next⟩
  refine ⟨a, w2, u2, b1, b3, hne.symm, (b4.others u1 ?_ hne).trans h4.next⟩
  rintro rfl
  obtain ⟨_, n, e, _⟩ := hh
  exact h4.fresh ⟨n, e⟩

end
end Verif
