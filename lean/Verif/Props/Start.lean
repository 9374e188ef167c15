import Verif.Props.HandOver
/-!
# Back to the start (C121)

The first layer of a space stays empty, and every workspace of the space can be taken back to it.
-/
set_option autoImplicit false
namespace Verif
open M TS Json

section
variable {E : Env} {f : Faults} {d d1 d2 d3 : Disk} {cwd path branch cwd2 : Str} {w v : OpenWs} {u root u' q : UID}

theorem start_empty (hd : Reachable E d) (hout : E.Outside (Path.abs cwd path)) {x : OpenWs} (he : Exec E Faults.none (initCmd E (Path.abs cwd path) branch) d (.ok x) d1)
    (hg : Gets E d1 cwd path w) (hroot : w.tree.abs.root = some root) : w.tree.abs.node root = some ⟨none, fun _ => none, fun _ => none⟩ ∧ d1.layer root = some (some .empty) ∧ ¬ Head E d1 root := by
  obtain ⟨g, hs⟩ := steady_reachable hd
  have hr1 : Reachable E d1 := reachable_next hd (f := Faults.none) rfl (a := .init _ branch) (off_of_outside hout) (.init he)
  obtain ⟨root', u', dp, g', w', hFo, hs', hG, _, hne, ho, _, hbr, htree, hfr, _⟩ := after_init hs hout he
  obtain rfl := gets_unique hr1 hout hg (gets_of_opens ho)
  have hN := newHistory (wid := w.ws.id) (branch := sanitize branch) hne
  rw [← htree] at hN
  obtain rfl : root' = root := Option.some.inj (hN.start.symm.trans hroot)
  refine ⟨hN.first, by rw [hfr.layer, upd_ne _ _ (Ne.symm hne), hFo.layer, upd_self], fun ⟨n, rc, hn, e⟩ => ?_⟩
  by_cases e1 : n = w.mount.id.base32
  · subst e1
    obtain ⟨i, h1, _, _, _, h2, _⟩ := ho.info
    rw [hn] at h1
    have h3 := C17_info_roundtrip E.sh rc.info
    have h4 : marshalInfo E.sh rc.info = marshalInfo E.sh i := Option.some.inj h1
    rw [h4, C17_info_roundtrip] at h3
    have h5 := congrArg WsInfo.head (Option.some.inj h3)
    simp only [WsRec.info, h2, sanitize_hex] at h5
    exact hne (C03_hex_injective (h5.trans (by rw [← e])))
  · obtain ⟨c, hc⟩ := head_stored hs ⟨n, rc, by rw [← hFo.litter.info, ← (hfr.others n e1 (fun x => x)).2.1]; exact hn, e⟩
    rw [hFo.newLayer] at hc; cases hc

/-- **C121.** After `init` and whatever else happens while no call fails, in every workspace of the space: a checkout of the first layer, by any name, succeeds and shows no files. -/
theorem C121_start (hd : Reachable E d) (hout : E.Outside (Path.abs cwd path)) {x : OpenWs} (he : Exec E Faults.none (initCmd E (Path.abs cwd path) branch) d (.ok x) d1)
    (hg : Gets E d1 cwd path w) (hroot : w.tree.abs.root = some root) (hio : f.io = false) (hp : Past E f d1 d2) (hout2 : E.Outside (Path.abs cwd2 (lit ".")))
    (hg2 : Gets E d2 cwd2 (lit ".") v) (hsp : v.spaceID = w.spaceID) (hh : v.ws.HeadAt v.tree u' q)
    (hlink : ∃ n m c, d2.user v.ws.path = .link (E.mountPath n) ∧ d2.mdir n = some m ∧ m.merged = some c) (hfit : E.Fits 1)
    {key : Str} (hk : PlainKey key) {kt : KeyType} (hres : Ws.Resolves v.tree.abs v.ws.id q key root kt)
    {r : Res CErr (OpenWs × OpenWs)} (he2 : Exec E Faults.none (checkoutCmd E cwd2 key) d2 r d3) :
    (∃ z, r = .ok z) ∧ ∃ v3 u3, Gets E d3 cwd2 (lit ".") v3 ∧ v3.ws.id = v.ws.id ∧ v3.ws.HeadAt v3.tree u3 root ∧ d3.Mounted v3 ∧ ∀ l, d3.lists v3 l = none := by
  have hr1 : Reachable E d1 := reachable_next hd (f := Faults.none) rfl (a := .init _ branch) (off_of_outside hout) (.init he)
  obtain ⟨hn, hl, hh1⟩ := start_empty hd hout he hg hroot
  obtain ⟨g, hs⟩ := steady_reachable hr1
  obtain ⟨g', hs', hG⟩ := steady_past hio hs hp
  have hr2 : Reachable E d2 := by
    obtain ⟨f0, d0, h1, h2, h3⟩ := hr1
    exact ⟨f0.join f, d0, by simp [Faults.join, h1, hio], h2, past_trans (past_mono (le_join_left f0 f) h3) (past_mono (le_join_right f0 f) hp)⟩
  obtain ⟨n', a1, a2, _⟩ := C31_append_only hr1 hio hp hout hout2 hg hg2 hsp hn
  have hls : v.tree.abs.Path root [root] := .root a1 a2
  obtain ⟨z, rfl⟩ := (C61_checkout_accepted_iff hr2 hk hout2 hg2 hh (fun v2 kt2 ls2 a b => by
      obtain ⟨rfl, _⟩ := Ws.resolves_unique a hres
      rw [Ws.path_unique b hls]; exact hfit) hlink he2).2 ⟨root, _, hres⟩
  obtain ⟨v3, u3, K⟩ := C116_once hr2 hout2 hg2 hh hres hls he2
  refine ⟨⟨z, rfl⟩, v3, u3, K.gets, K.id, K.head, K.mounted, fun l => ?_⟩
  have hc : d2.content root = .empty := by
    simp only [Disk.content, hG.layer root ⟨_, hl⟩ hh1, hl]; rfl
  rw [K.files, List.map_cons, List.map_nil, hc]
  cases l with
  | nil => rfl
  | cons x l =>
    rw [files_blank blank_empty]
    have hstack : ∀ q, stack [] q = [] := by
      intro q; induction q with
      | nil => rfl
      | cons _ _ ih => rw [stack, ih]; rfl
    simp only [files, if_neg (List.cons_ne_nil x l), view, hstack]
    rfl

/-- **C121.** One name of the first layer cannot be lost: its ID. -/
theorem C121_id (hd : Reachable E d) (hout : E.Outside (Path.abs cwd path)) {x : OpenWs} (he : Exec E Faults.none (initCmd E (Path.abs cwd path) branch) d (.ok x) d1)
    (hg : Gets E d1 cwd path w) (hroot : w.tree.abs.root = some root) (hio : f.io = false) (hp : Past E f d1 d2) (hout2 : E.Outside (Path.abs cwd2 (lit ".")))
    (hg2 : Gets E d2 cwd2 (lit ".") v) (hsp : v.spaceID = w.spaceID)
    (hlink : ∃ n m c, d2.user v.ws.path = .link (E.mountPath n) ∧ d2.mdir n = some m ∧ m.merged = some c) (hfit : E.Fits 1)
    {r : Res CErr (OpenWs × OpenWs)} (he2 : Exec E Faults.none (checkoutCmd E cwd2 root.hex) d2 r d3) :
    (∃ z, r = .ok z) ∧ ∃ v3 u3, Gets E d3 cwd2 (lit ".") v3 ∧ v3.ws.id = v.ws.id ∧ v3.ws.HeadAt v3.tree u3 root ∧ d3.Mounted v3 ∧ ∀ l, d3.lists v3 l = none := by
  have hr1 : Reachable E d1 := reachable_next hd (f := Faults.none) rfl (a := .init _ branch) (off_of_outside hout) (.init he)
  obtain ⟨hn, hl, hh1⟩ := start_empty hd hout he hg hroot
  obtain ⟨g, hs⟩ := steady_reachable hr1
  obtain ⟨g', hs', hG⟩ := steady_past hio hs hp
  obtain ⟨u', q, T, hF⟩ := found_of_gets hs' hout2 hg2
  obtain ⟨n', a1, _⟩ := C31_append_only hr1 hio hp hout hout2 hg hg2 hsp hn
  exact C121_start hd hout he hg hroot hio hp hout2 hg2 hsp hF.opens.head hlink hfit (hex_plain root) (.id (hex_ne_head root) (hex_spells root) ⟨n', a1⟩) he2

theorem pastOf_trans {A : Act → Prop} (h : PastOf E f A d d1) (h' : PastOf E f A d1 d2) : PastOf E f A d d2 := by
  induction h' with
  | refl => exact h
  | step _ ha hp hh ih => exact .step ih ha hp hh

/-- **C121.** As long as nobody gives `tag -d ROOT` or `tag -f ROOT`, `checkout ROOT` does it. -/
theorem C121_name {d0 : Disk} (h0 : Untouched d0) (hp0 : PastOf E Faults.none Act.SparesRoot d0 d) (hout : E.Outside (Path.abs cwd path)) {x : OpenWs}
    (he : Exec E Faults.none (initCmd E (Path.abs cwd path) branch) d (.ok x) d1) (hg : Gets E d1 cwd path w) (hroot : w.tree.abs.root = some root)
    (hp : PastOf E Faults.none Act.SparesRoot d1 d2) (hout2 : E.Outside (Path.abs cwd2 (lit "."))) (hg2 : Gets E d2 cwd2 (lit ".") v) (hsp : v.spaceID = w.spaceID)
    (hlink : ∃ n m c, d2.user v.ws.path = .link (E.mountPath n) ∧ d2.mdir n = some m ∧ m.merged = some c) (hfit : E.Fits 1)
    {r : Res CErr (OpenWs × OpenWs)} (he2 : Exec E Faults.none (checkoutCmd E cwd2 (lit "ROOT")) d2 r d3) :
    (∃ z, r = .ok z) ∧ ∃ v3 u3, Gets E d3 cwd2 (lit ".") v3 ∧ v3.ws.id = v.ws.id ∧ v3.ws.HeadAt v3.tree u3 root ∧ d3.Mounted v3 ∧ ∀ l, d3.lists v3 l = none := by
  have hd : Reachable E d := reachable_untouched (f := Faults.none) rfl h0 (past_of_pastOf hp0)
  have hr1 : Reachable E d1 := reachable_next hd (f := Faults.none) rfl (a := .init _ branch) (off_of_outside hout) (.init he)
  obtain ⟨hn, _⟩ := start_empty hd hout he hg hroot
  obtain ⟨g, hs⟩ := steady_reachable hr1
  obtain ⟨g', hs', _⟩ := steady_past (f := Faults.none) rfl hs (past_of_pastOf hp)
  obtain ⟨u', q, T, hF⟩ := found_of_gets hs' hout2 hg2
  obtain ⟨n', a1, a2, _⟩ := C31_append_only hr1 (f := Faults.none) rfl (past_of_pastOf hp) hout hout2 hg hg2 hsp hn
  have hpast : PastOf E Faults.none Act.SparesRoot d0 d2 := pastOf_trans (.step hp0 (a := .init _ branch) trivial (off_of_outside hout) (.init he)) hp
  obtain ⟨r', b1, b2⟩ := C46_root_partial h0 (f := Faults.none) rfl hpast hout2 hg2 hF.opens.head
  obtain rfl : r' = root := Option.some.inj (b1.symm.trans ((reach_rooted (opens_reach hF.opens)).unique root n' a1 a2))
  exact C121_start hd hout he hg hroot (f := Faults.none) rfl (past_of_pastOf hp) hout2 hg2 hsp hF.opens.head hlink hfit (by unfold PlainKey; decide) ((b2 _ _).2 ⟨rfl, rfl⟩) he2

end
end Verif
