import Verif.Props.Live
/-!
# Histories that exist

`Live` collects what holds for a workspace that has just been expanded. Each of the lemmas below continues a history by one
command that succeeds. They show that the hypotheses of the theorems about commands are met, and how they are met:
`Verif.Props.Examples`.
-/
set_option autoImplicit false
namespace Verif
open M TS Json

/-- A history in which nothing went wrong. -/
def Calmly (E : Env) (d : Disk) : Prop := ∃ d0, Untouched d0 ∧ Past E Faults.none d0 d

theorem Calmly.reachable {E : Env} {d : Disk} (h : Calmly E d) : Reachable E d := by
  obtain ⟨d0, h0, hp⟩ := h
  exact reachable_untouched rfl h0 hp

/-- The data root contains no line breaks and no 0xFF bytes. -/
def Env.Neat (E : Env) : Prop := ∀ c ∈ Path.comps E.root, ∀ b ∈ c, b ≠ 10 ∧ b ≠ 13 ∧ b ≠ 0xFF

/-- The workspace `w` at `cwd`, mounted with the working layer `u` on the layers `ls` of its last commit `p`. -/
structure Live (E : Env) (d : Disk) (cwd : Str) (w : OpenWs) (u p : UID) (ls : List UID) : Prop where
  past : Calmly E d
  opens : Opens E d cwd (lit ".") w u p
  mnt : d.mnt w.mount.id.base32 = some ⟨u, ls⟩
  link : d.user (Path.abs cwd (lit ".")) = .link (E.mountPath w.mount.id.base32)
  mdir : d.mdir w.mount.id.base32 = some ⟨some .empty, true⟩
  path : w.tree.abs.Path p ls

section
variable {E : Env}

theorem Live.gets {d : Disk} {cwd : Str} {w : OpenWs} {u p : UID} {ls : List UID} (h : Live E d cwd w u p ls) : Gets E d cwd (lit ".") w :=
  gets_of_opens h.opens

theorem Live.full {d : Disk} {cwd : Str} {w : OpenWs} {u p : UID} {ls : List UID} (h : Live E d cwd w u p ls) : w.tree.abs.Path u (u :: ls) := by
  obtain ⟨_, n, hn, hp⟩ := h.opens.head
  exact .step hn hp h.path

theorem Live.mounted {d : Disk} {cwd : Str} {w : OpenWs} {u p : UID} {ls : List UID} (h : Live E d cwd w u p ls) : d.Mounted w := by
  rw [Disk.Mounted, h.mnt]; simp

theorem Live.clearable {d : Disk} {cwd : Str} {w : OpenWs} {u p : UID} {ls : List UID} (h : Live E d cwd w u p ls) :
    ∃ n m c, d.user w.ws.path = .link (E.mountPath n) ∧ d.mdir n = some m ∧ m.merged = some c :=
  ⟨_, _, _, by rw [h.opens.path]; exact h.link, h.mdir, rfl⟩

theorem Live.plain {d : Disk} {cwd : Str} {w : OpenWs} {u p : UID} {ls : List UID} (hE : E.Neat) (h : Live E d cwd w u p ls) : PlainLink d cwd (lit ".") := by
  suffices hx : ∀ t, d.user (Path.abs cwd (lit ".")) = .link t → ∀ c ∈ targetOf cwd (lit ".") (some t), ∀ b ∈ c, b ≠ 10 ∧ b ≠ 13 ∧ b ≠ 0xFF from fun t ht c hc =>
    plainKey_bytes (fun h => (hx t ht c hc _ h).1 rfl) (fun h => (hx t ht c hc _ h).2.1 rfl) (fun h => (hx t ht c hc _ h).2.2 rfl)
  intro t ht c hc b hb
  rw [h.link] at ht
  cases ht
  have hb32 := (C05_base32_decode_iff w.mount.id.base32 w.mount.id).1 (C02_base32_roundtrip w.mount.id)
  have hpl : ∀ c ∈ Path.comps E.root ++ [lit "mounts", w.mount.id.base32, lit "merged"], Path.Plain c := by
    intro c hc
    rcases List.mem_append.1 hc with hc | hc
    · exact Path.comps_plain E.root c hc
    · simp only [List.mem_cons, List.not_mem_nil, or_false] at hc
      rcases hc with rfl | rfl | rfl
      · exact ⟨by decide, by decide, by decide, by decide⟩
      · have hl := C02_base32_length w.mount.id
        refine ⟨?_, ?_, ?_, ?_⟩
        · intro h; rw [h] at hl; cases hl
        · intro h; rw [h] at hl; cases hl
        · intro h; rw [h] at hl; cases hl
        · intro h; exact absurd (hb32.2.1 _ h) (by decide)
      · exact ⟨by decide, by decide, by decide, by decide⟩
  have hcs : Path.comps (E.mountPath w.mount.id.base32) = Path.comps E.root ++ [lit "mounts", w.mount.id.base32, lit "merged"] := Path.comps_render hpl
  have hc : c ∈ Path.comps (E.mountPath w.mount.id.base32) := hc
  rw [hcs] at hc
  rcases List.mem_append.1 hc with hc | hc
  · exact hE c hc b hb
  · simp only [List.mem_cons, List.not_mem_nil, or_false] at hc
    rcases hc with rfl | rfl | rfl
    · have : ∀ b ∈ lit "mounts", b ≠ 10 ∧ b ≠ 13 ∧ b ≠ 0xFF := by decide
      exact this b hb
    · have h1 := hb32.2.1 b hb
      have : ∀ b ∈ base32Chars, b ≠ 10 ∧ b ≠ 13 ∧ b ≠ 0xFF := by decide
      exact this b h1
    · have : ∀ b ∈ lit "merged", b ≠ 10 ∧ b ≠ 13 ∧ b ≠ 0xFF := by decide
      exact this b hb

theorem extends_anc {S : UID → Prop} {a b : ATree} (h : Extends S a b) {x u : UID} (ha : a.Anc x u) : b.Anc x u := by
  induction ha with
  | refl h1 => obtain ⟨n', e1, _⟩ := h _ _ h1; exact .refl e1
  | step h1 h2 _ ih => obtain ⟨n', e1, e2, _⟩ := h _ _ h1; exact .step e1 (e2.trans h2) ih

/-- What is opened at a path is determined by the disk. -/
theorem gets_unique {d : Disk} (hd : Reachable E d) {cwd path : Str} (hout : E.Outside (Path.abs cwd path)) {w w' : OpenWs} (h : Gets E d cwd path w)
    (h' : Gets E d cwd path w') : w = w' := by
  obtain ⟨g, hs⟩ := steady_reachable hd
  obtain ⟨u, p, T, hF⟩ := found_of_gets hs hout h
  exact (wpm_exec_ok (getWorkspace_wp hF.opens) h').1.symm

/-- After `init` on a free path the workspace is live. -/
theorem live_init {d : Disk} (hd : Calmly E d) {cwd branch : Str} (hout : E.Outside (Path.abs cwd (lit "."))) (hfree : d.user (Path.abs cwd (lit ".")) = .none)
    (hfit : E.Fits 1) (hu : d.used.length + 5 < 2 ^ 128) :
    ∃ d' r w u root, Exec E Faults.none (initCmd E (Path.abs cwd (lit ".")) branch) d (.ok r) d' ∧ Live E d' cwd w u root [root] ∧
      d'.used.length ≤ d.used.length + 5 ∧ w.ws.branch = sanitize branch ∧ NewHistory w.tree.abs w.ws.id root u (sanitize branch) ∧
      (∀ p, p ≠ Path.abs cwd (lit ".") → d'.user p = d.user p) ∧ ∀ v, Head E d' v → v = u ∨ Head E d v := by
  obtain ⟨r, d', he⟩ := exec_total (E := E) (f := Faults.none) (initCmd_draws E (Path.abs cwd (lit ".")) branch) d hu
  obtain ⟨r, rfl⟩ := C55_accepted hd.reachable (off_of_outside hout) (by unfold FreeFor; rw [hfree]; trivial) (Or.inl hfree) hfit he
  obtain ⟨g, hs⟩ := steady_reachable hd.reachable
  obtain ⟨root, u, dp, g', w, hFo, hs', _, _, hne, ho, _, hbr, htree, hfr, _⟩ := after_init hs hout he
  have hN := newHistory (wid := w.ws.id) (branch := sanitize branch) hne
  rw [← htree] at hN
  obtain ⟨d0, h0, hp⟩ := hd
  refine ⟨d', r, w, u, root, he, ⟨⟨d0, h0, .step (a := .init _ _) hp (off_of_outside hout) (.init he)⟩, ho, hfr.mnt, hfr.link, hfr.mdir, .root hN.first rfl⟩,
    exec_used (initCmd_draws _ _ _) he, hbr, hN, fun p hp => (hfr.user p hp).trans (by rw [hFo.litter.user]), fun v hv => ?_⟩
  obtain ⟨n, rc, hn, rfl⟩ := hv
  by_cases e : n = w.mount.id.base32
  · subst e
    obtain ⟨i, h1, _, _, _, h2, _⟩ := ho.info
    rw [hn] at h1
    have h3 := C17_info_roundtrip E.sh rc.info
    have h4 : marshalInfo E.sh rc.info = marshalInfo E.sh i := Option.some.inj h1
    rw [h4, C17_info_roundtrip] at h3
    have h5 := congrArg WsInfo.head (Option.some.inj h3)
    simp only [WsRec.info, h2, sanitize_hex] at h5
    exact Or.inl (C03_hex_injective h5.symm)
  · exact Or.inr ⟨n, rc, by rw [← hFo.litter.info, ← (hfr.others n e (fun x => x)).2.1]; exact hn, rfl⟩

/-- A write through the mount. -/
theorem live_write {d : Disk} {cwd : Str} {w : OpenWs} {u p : UID} {ls : List UID} (h : Live E d cwd w u p ls) (c : Content) :
    Live E (d.put u c) cwd w u p ls ∧ (d.put u c).used = d.used ∧ (d.put u c).content u = c := by
  obtain ⟨d0, h0, hp⟩ := h.past
  have hC : Calmly E (d.put u c) := ⟨d0, h0, .step (o := 0) (a := .write w.mount.id.base32 c) hp trivial (.write (m := ⟨u, ls⟩) h.mnt)⟩
  have ho := h.opens
  have hst : w.tree.abs.Has u := by obtain ⟨_, n, hn, _⟩ := ho.head; exact ⟨n, hn⟩
  have hput : d.put u c = d.setLayer u (some (some c)) := by
    obtain ⟨c', hc'⟩ := ho.stored u hst
    simp only [Disk.put, hc']
  rw [hput] at hC ⊢
  refine ⟨⟨hC, ⟨ho.out, ho.link, ho.path, ho.info, ho.mount, ho.dir, ho.tree, ho.head, fun v hv => ?_⟩, h.mnt, h.link, h.mdir, h.path⟩, rfl, ?_⟩
  · by_cases e : v = u
    · subst e; exact ⟨c, upd_self _ _ _⟩
    · obtain ⟨c', hc'⟩ := ho.stored v hv; exact ⟨c', (upd_ne _ _ e).trans hc'⟩
  · simp [Disk.content, Disk.setLayer]

/-- A commit that is accepted. -/
theorem live_commit {d : Disk} (hE : E.Neat) {cwd : Str} {w : OpenWs} {u p : UID} {ls : List UID} (h : Live E d cwd w u p ls) (hmay : MayCommit w u)
    (hfit : E.Fits (ls.length + 1)) (hu : d.used.length + 2 < 2 ^ 128) (ci : CommitInfo) :
    ∃ d' r w' u', Exec E Faults.none (commitCmd E cwd ci) d (.ok r) d' ∧ Live E d' cwd w' u' u (u :: ls) ∧ d'.used.length ≤ d.used.length + 2 ∧
      SameWs w w' ∧ MayCommit w' u' ∧ CommitEffect w.tree.abs w.ws u u' ci w'.tree.abs ∧ w'.mount.id ≠ w.mount.id ∧
      (∀ p, p ≠ Path.abs cwd (lit ".") → d'.user p = d.user p) ∧
      ∀ cwd2 w2 u2 p2 ls2, Live E d cwd2 w2 u2 p2 ls2 → w2.mount.id ≠ w.mount.id → Path.abs cwd2 (lit ".") ≠ Path.abs cwd (lit ".") →
        ∃ w2', Live E d' cwd2 w2' u2 p2 ls2 ∧ SameWs w2 w2' ∧ w2'.mount.id = w2.mount.id ∧ (w2.ws.branch = [] → MayCommit w2' u2) := by
  obtain ⟨r, d', he⟩ := exec_total (E := E) (f := Faults.none) (commitCmd_draws E cwd ci) d hu
  obtain ⟨r, rfl⟩ := (C28_accepted_iff h.past.reachable h.opens.out h.gets h.opens.head h.full hfit h.clearable he).2 hmay
  obtain ⟨g, hs⟩ := steady_reachable h.past.reachable
  obtain ⟨T, hF⟩ := gets_found hs h.opens.out h.gets h.opens.head
  obtain ⟨_, hfo, u', ls', g', w', hs', hG, hK, hP, ho, hid, hsp, hbr, hnew, htree, hfr, _⟩ := after_commit hs hF he
  obtain rfl := Ws.path_unique hP h.full
  obtain ⟨d0, h0, hp⟩ := h.past
  have hpast : Calmly E d' := ⟨d0, h0, .step (a := .commit cwd ci) hp h.opens.out (.commit he)⟩
  have hEff : CommitEffect w.tree.abs w.ws u u' ci w'.tree.abs := by
    rw [htree]; obtain ⟨_, n, hn, _⟩ := h.opens.head; exact commitEffect ⟨n, hn⟩ hnew
  have hpath : w'.tree.abs.Path u (u :: ls) := by
    rw [htree]
    exact extends_path (extends_commit (S := fun _ => True) trivial hnew) h.full
  have hmd : w'.mount.id ≠ w.mount.id := by
    intro e
    have := hfr.newMdir
    rw [e, h.mdir] at this; cases this
  refine ⟨d', r, w', u', he, ⟨hpast, ho, hfr.mnt, by rw [← h.opens.path]; exact hfr.link, hfr.mdir, hpath⟩, exec_used (commitCmd_draws _ _ _) he, ⟨hid, hbr, hsp⟩, ?_, hEff,
    hmd, fun p hp => hfr.user p (by rw [h.opens.path]; exact hp), fun cwd2 w2 u2 p2 ls2 h2 hne hcwd => ?_⟩
  · by_cases hb : w.ws.branch = []
    · exact Or.inl (hbr.trans hb)
    · obtain ⟨_, n, hn, hpp⟩ := ho.head
      obtain ⟨n2, hn2⟩ : w'.tree.abs.Has u := by obtain ⟨_, n, _, h, _⟩ := hEff.commit; exact ⟨n, h⟩
      refine Or.inr ⟨u, ?_, .step hn hpp (.refl hn2)⟩
      rw [hid, hbr]; exact hEff.moved hb
  · obtain ⟨T2, hF2⟩ := gets_found hs h2.opens.out h2.gets h2.opens.head
    have hk1 : w2.mount.id.base32 ≠ w'.mount.id.base32 := fun e => hF2.mdir (by rw [e]; exact hfr.newMdir)
    have hk2 : w2.mount.id.base32 ≠ w.mount.id.base32 := fun e => hne (base32_inj e)
    obtain ⟨o1, o2, o3⟩ := hfr.others _ hk1 hk2
    have huser := hfr.user (Path.abs cwd2 (lit ".")) (by rw [h.opens.path]; exact hcwd)
    obtain ⟨w2', ho2, e1, e2, e3, e4, hx⟩ := others_open hs hs' hG hK hF2 huser o2
    refine ⟨w2', ⟨hpast, ho2, by rw [e3, o1]; exact h2.mnt, by rw [huser, e3]; exact h2.link, by rw [e3, o3]; exact h2.mdir, extends_path hx h2.path⟩,
      ⟨e1, e4, e2⟩, e3, fun hb => Or.inl (e4.trans hb)⟩

/-- A checkout of a key that resolves. -/
theorem live_checkout {d : Disk} (hE : E.Neat) {cwd key : Str} (hk : PlainKey key) {w : OpenWs} {u p : UID} {ls : List UID} (h : Live E d cwd w u p ls)
    {v : UID} {kt : KeyType} (hR : Ws.Resolves w.tree.abs w.ws.id p key v kt) {lv : List UID} (hv : w.tree.abs.Path v lv)
    (hfit : E.Fits lv.length) (hu : d.used.length + 2 < 2 ^ 128) :
    ∃ d' r w' u', Exec E Faults.none (checkoutCmd E cwd key) d (.ok r) d' ∧ Live E d' cwd w' u' v lv ∧ d'.used.length ≤ d.used.length + 2 ∧
      w'.ws.id = w.ws.id ∧ w'.spaceID = w.spaceID ∧ w'.ws.branch = sanitize (branchAfter key kt) ∧
      (∀ p, p ≠ Path.abs cwd (lit ".") → d'.user p = d.user p) ∧
      ∀ cwd2 w2 u2 p2 ls2, Live E d cwd2 w2 u2 p2 ls2 → w2.mount.id ≠ w.mount.id → Path.abs cwd2 (lit ".") ≠ Path.abs cwd (lit ".") →
        ∃ w2', Live E d' cwd2 w2' u2 p2 ls2 ∧ SameWs w2 w2' ∧ w2'.mount.id = w2.mount.id ∧ w2'.mount.id ≠ w'.mount.id ∧
          Extends (Head E d) w2.tree.abs w2'.tree.abs ∧ (w2.spaceID = w.spaceID → w2'.tree.abs.branch = w2.tree.abs.branch) := by
  obtain ⟨r, d', he⟩ := exec_total (E := E) (f := Faults.none) (checkoutCmd_draws E cwd key) d hu
  obtain ⟨r, rfl⟩ := (C61_checkout_accepted_iff h.past.reachable hk h.opens.out h.gets h.opens.head (fun v' kt' ls' a b => by
    obtain ⟨rfl, rfl⟩ := Ws.resolves_unique a hR
    rw [Ws.path_unique b hv]; exact hfit) h.clearable he).2 ⟨v, kt, hR⟩
  obtain ⟨g, hs⟩ := steady_reachable h.past.reachable
  obtain ⟨T, hF⟩ := gets_found hs h.opens.out h.gets h.opens.head
  obtain ⟨_, v', kt', u', ls', g', w', hR', hs', hG, hK, hP, ho, hid, hsp, hbr, hnew, htree, hfr⟩ := after_checkout hs hF he
  obtain ⟨rfl, rfl⟩ := Ws.resolves_unique hR' hR
  obtain rfl := Ws.path_unique hP hv
  obtain ⟨d0, h0, hp⟩ := h.past
  have hpast : Calmly E d' := ⟨d0, h0, .step (a := .checkout cwd key) hp h.opens.out (.checkout he)⟩
  have hpath : w'.tree.abs.Path v' ls' := by
    rw [htree]
    exact extends_path (extends_add (S := fun _ => True) hnew) hv
  refine ⟨d', r, w', u', he, ⟨hpast, ho, hfr.mnt, by rw [← h.opens.path]; exact hfr.link, hfr.mdir, hpath⟩, exec_used (checkoutCmd_draws _ _ _) he, hid, hsp, hbr,
    fun p hp => hfr.user p (by rw [h.opens.path]; exact hp), fun cwd2 w2 u2 p2 ls2 h2 hne hcwd => ?_⟩
  obtain ⟨T2, hF2⟩ := gets_found hs h2.opens.out h2.gets h2.opens.head
  have hk1 : w2.mount.id.base32 ≠ w'.mount.id.base32 := fun e => hF2.mdir (by rw [e]; exact hfr.newMdir)
  have hk2 : w2.mount.id.base32 ≠ w.mount.id.base32 := fun e => hne (base32_inj e)
  obtain ⟨o1, o2, o3⟩ := hfr.others _ hk1 hk2
  have huser := hfr.user (Path.abs cwd2 (lit ".")) (by rw [h.opens.path]; exact hcwd)
  obtain ⟨w2', ho2, e1, e2, e3, e4, hx⟩ := others_open hs hs' hG hK hF2 huser o2
  refine ⟨w2', ⟨hpast, ho2, by rw [e3, o1]; exact h2.mnt, by rw [huser, e3]; exact h2.link, by rw [e3, o3]; exact h2.mdir, extends_path hx h2.path⟩,
    ⟨e1, e4, e2⟩, e3, fun e => hk1 (by rw [← e3, e]), hx, fun hsame => ?_⟩
  have t1 : w2.tree = w.tree := loads_same h2.opens.out h.opens.out h2.gets h.gets (by rw [h2.opens.dir, h.opens.dir, hsame])
  have t2 : w2'.tree = w'.tree := loads_same ho2.out ho.out (gets_of_opens ho2) (gets_of_opens ho) (by rw [ho2.dir, ho.dir, e2, hsp, hsame])
  rw [t1, t2, htree]; rfl

/-- A clone into a free path. -/
theorem live_clone {d : Disk} (hE : E.Neat) {cwd cwd2 : Str} {w : OpenWs} {u p : UID} {ls : List UID} (h : Live E d cwd w u p ls)
    (hout : E.Outside (Path.abs cwd2 (lit "."))) (hfree : d.user (Path.abs cwd2 (lit ".")) = .none)
    (hfit : E.Fits ls.length) (hu : d.used.length + 5 < 2 ^ 128) :
    ∃ d' r w' u', Exec E Faults.none (cloneCmd E cwd (lit ".") (Path.abs cwd2 (lit "."))) d (.ok r) d' ∧ Live E d' cwd2 w' u' p ls ∧ d'.used.length ≤ d.used.length + 5 ∧
      w'.spaceID = w.spaceID ∧ w'.ws.branch = w.ws.branch ∧ (∀ p, p ≠ Path.abs cwd2 (lit ".") → d'.user p = d.user p) ∧
      ∃ w0, Live E d' cwd w0 u p ls ∧ SameWs w w0 ∧ w0.mount.id = w.mount.id ∧ w0.mount.id ≠ w'.mount.id ∧ (MayCommit w u → MayCommit w0 u) := by
  obtain ⟨r, d', he⟩ := exec_total (E := E) (f := Faults.none) (cloneCmd_draws E cwd (lit ".") (Path.abs cwd2 (lit "."))) d (by omega)
  obtain ⟨r, rfl⟩ := (C62_clone_accepted_iff h.past.reachable h.opens.out (off_of_outside hout) h.gets h.opens.head h.path (fun t ht => by rw [hfree] at ht; cases ht) he).2
    ⟨hfit, by rw [hfree]; simp, by rw [hfree]; simp, fun ⟨_, _, h, _⟩ => by rw [hfree] at h; cases h⟩
  obtain ⟨g, hs⟩ := steady_reachable h.past.reachable
  obtain ⟨T, hF⟩ := gets_found hs h.opens.out h.gets h.opens.head
  obtain ⟨u', ls', g', w', hs', hG, hK, hP, ho, _, hsp, hbr, hnew, htree, hfr⟩ := after_clone hs hF hout he
  obtain rfl := Ws.path_unique hP h.path
  obtain ⟨d0, h0, hp⟩ := h.past
  have hpast : Calmly E d' := ⟨d0, h0, .step (a := .clone cwd (lit ".") _) hp ⟨h.opens.out, off_of_outside hout⟩ (.clone he)⟩
  have hpath : w'.tree.abs.Path p ls' := by
    rw [htree]
    exact extends_path (extends_add (S := fun _ => True) hnew) hP
  have hcwd : Path.abs cwd (lit ".") ≠ Path.abs cwd2 (lit ".") := by
    intro e
    have := h.link
    rw [e, hfree] at this; cases this
  have hk1 : w.mount.id.base32 ≠ w'.mount.id.base32 := fun e => hF.mdir (by rw [e]; exact hfr.newMdir)
  obtain ⟨o1, o2, o3⟩ := hfr.others _ hk1 (fun x => x)
  have huser := hfr.user (Path.abs cwd (lit ".")) hcwd
  obtain ⟨w0, ho2, e1, e2, e3, e4, hx⟩ := others_open hs hs' hG hK hF huser o2
  refine ⟨d', r, w', u', he, ⟨hpast, ho, hfr.mnt, hfr.link, hfr.mdir, hpath⟩, Nat.le_trans (exec_used (cloneCmd_draws _ _ _ _) he) (by omega), hsp, hbr, hfr.user,
    w0, ⟨hpast, ho2, by rw [e3, o1]; exact h.mnt, by rw [huser, e3]; exact h.link, by rw [e3, o3]; exact h.mdir, extends_path hx h.path⟩,
      ⟨e1, e4, e2⟩, e3, fun e => hk1 (by rw [← e3, e]), fun hm => ?_⟩
  have t2 : w0.tree = w'.tree := loads_same ho2.out ho.out (gets_of_opens ho2) (gets_of_opens ho) (by rw [ho2.dir, ho.dir, e2, hsp])
  rcases hm with hm | ⟨x, h1, h2⟩
  · exact Or.inl (e4.trans hm)
  · refine Or.inr ⟨x, ?_, ?_⟩
    · rw [e1, e4, t2, htree]; exact h1
    · exact extends_anc hx h2

end
end Verif
