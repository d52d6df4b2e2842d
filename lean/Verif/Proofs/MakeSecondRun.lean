/- Runs in which all commands do their work. -/
import Verif.Proofs.SchedExtra
import Verif.Proofs.MakeSecond
import Verif.Proofs.MakeDisk
import Verif.Proofs.MakePlain

namespace Jom.Make

open Jom.Graph Jom.Sched Jom.UpToDate Jom.Spec Jom.Spec.Build Relation

variable {env : Env} {cfg : Cfg} {db : Db} {Q H : Nat → Prop} {disk0 : Str → Option Nat} {b : Nat} {g : Graph} {m : Mem}

/-! ### Files are asked for -/

theorem PInv.files (h : PInv env cfg db Q H disk0 b g m) {m' : Mem} (hinfo : m'.info = m.info)
    (hdisk : m'.files.disk = m.files.disk) (hc : CInv env cfg db Q H b g m'.files) : PInv env cfg db Q H disk0 b g m' := by
  have hf : fm env m' = fm env m := by unfold fm; rw [hdisk]
  refine ⟨h.core.update hdisk hc (by rw [hinfo]; exact h.core.weak) (by rw [hinfo]; exact h.core.stat) (fun x _ => by rw [hinfo])
    (fun x _ _ => .inl (by rw [hinfo]; exact ⟨rfl, rfl, id⟩)), fun hd l hl he hH => ?_⟩
  obtain ⟨h1, h2, h3⟩ := h.leaf hd l hl he hH
  rw [hf, hinfo]
  exact ⟨h1.congr hdisk (by rw [hinfo]), h2, h3⟩

theorem PInv.ask (p : Plan env cfg db disk0) (h : PInv env cfg db Q H disk0 b g m) (asked : Str → Bool) {t : Nat} (ht : t ∈ g.ids)
    (hch : g.children t = []) :
    PInv env cfg db Q H disk0 b g { m with files := remember env asked ((m.info t).name :: (m.info t).deps) m.files } := by
  have hw := (h.core.idReach ht).wanted
  obtain ⟨h1, h2⟩ := CInv.remember (asked := asked) (names := (m.info t).name :: (m.info t).deps) h.core.cache h.core.nz
    (fun n hn _ => h.core.mayAsk p ht hch (static_mention (h.core.weak t hw)
      (by simp only [List.mem_cons, List.cons_append, List.mem_append] at hn ⊢; exact hn.imp id .inl)))
  exact h.files rfl h2 h1

theorem PInv.buildAsked (p : Plan env cfg db disk0) (h : PInv env cfg db Q H disk0 b g m) {asked : List Str}
    (ha : ∀ n ∈ asked, ∃ t ∈ g.ids, n ∈ (m.info t).deps) : PInv env cfg db Q H disk0 b g (buildAsked env asked m) := by
  unfold Make.buildAsked
  obtain ⟨h1, h2⟩ := CInv.remember
    (asked := fun n => (env.lookup n).isNone && (env.lookup (env.dir ++ '\\' :: n)).isNone) (names := asked) h.core.cache h.core.nz
    (by
      intro n hn hno
      obtain ⟨t, ht, hd⟩ := ha n hn
      have hw := (h.core.idReach ht).wanted
      have hment := static_mention (h.core.weak t hw) (n := n) (by simp [hd])
      refine ⟨⟨t, hw, hment⟩, fun k hk hab => ?_⟩
      rcases hment with rfl | hment
      · left; rw [p.un.distinct t k hw hk hab]
      · exfalso
        have := (p.un.names t hw n hment k hk).2 hab
        rw [p.lookup, p.dir, Bool.and_eq_true, Option.isNone_iff_eq_none, Option.isNone_iff_eq_none] at hno
        rcases this with h1 | ⟨_, h1⟩
        · rw [hno.1] at h1; cases h1
        · rw [hno.2] at h1; cases h1)
  exact h.files rfl h2 h1

/-! ### Files are written -/

theorem PInv.write (p : Plan env cfg db disk0) (h : PInv env cfg db Q H disk0 b g m) {file : Str} {value : Option Nat} {busy : List Nat}
    (hbusy : ∀ t ∈ busy, t ∈ g.ids ∧ g.state t = .executing) (hw : MayWrite env.abs db cfg.targets busy file value) :
    PInv env cfg db Q H disk0 b g (Make.write m (file, value)) := by
  obtain ⟨hv0, hw⟩ := hw
  have hf' : ∀ n, fm env (Make.write m (file, value)) n = if env.abs n = file then value else fm env m n := fun n => rfl
  have hc := h.core
  -- what changes
  have hchange : ∀ n, Mentioned db cfg.targets n → fm env m n ≠ fm env (Make.write m (file, value)) n →
      ∃ t ∈ g.ids, g.state t = .executing ∧ env.abs n = env.abs (db.target t).name ∧ value ≠ none := by
    intro n hn hne
    rw [hf'] at hne
    split at hne
    · next he =>
      rcases hw with ⟨t, ht, h1, h2⟩ | hw
      · exact ⟨t, (hbusy t ht).1, (hbusy t ht).2, by rw [he, h1], h2⟩
      · exact absurd he.symm (hw n hn)
    · exact absurd rfl hne
  have hgrow : ∀ n, Mentioned db cfg.targets n → fm env m n ≠ none → fm env (Make.write m (file, value)) n ≠ none := by
    intro n hn h1 h2
    obtain ⟨t, _, _, _, h3⟩ := hchange n hn (by rw [h2]; exact h1)
    rw [hf'] at h2
    split at h2
    · exact h3 h2
    · exact h1 h2
  have hag : Agree db (Still cfg db Q H b g) (fm env m) (fm env (Make.write m (file, value))) := by
    refine ⟨(hc.view p 0).closed, ?_, ?_⟩
    · intro k hk
      apply Classical.byContradiction
      intro hne
      have hkw := hc.stillWanted hk
      obtain ⟨x, hx, hex, ha, _⟩ := hchange _ ⟨k, hkw, .inl rfl⟩ hne
      have := p.un.distinct k x hkw (hc.idReach hx).wanted ha
      subst this
      exact hc.execNot hx hex hk
    · intro k hk d hd
      apply Classical.byContradiction
      intro hne
      have hkw := hc.stillWanted hk
      obtain ⟨x, hx, hex, ha, _⟩ := hchange d ⟨k, hkw, .inr hd⟩ hne
      have := (p.un.names k hkw d hd x (hc.idReach hx).wanted).2 ha
      exact hc.execNot hx hex (.inl (hc.stillNeeds hk (p.needs hkw hd this)))
  have hgood : ∀ x, Still cfg db Q H b g x → Good (fm env m) db x → Good (fm env (Make.write m (file, value))) db x := by
    rintro x hx ⟨h1, h2⟩
    refine ⟨fun hb => hag.upToDate hx (h1 (hag.symm.buildable hx hb)), ?_⟩
    rcases h2 with h2 | ⟨h2, h3, h4⟩
    · left; rw [← hag.name x hx]; exact h2
    · right
      exact ⟨fun hb => h2 (hag.symm.buildable hx hb), h3, fun d hd hm => h4 d hd (hag.symm.missing hm ⟨x, hx, .inl hd⟩)⟩
  refine ⟨⟨hc.hurt, hc.edges, hc.ginv, hc.weak, ?_, ?_, ?_, ?_, ?_, fun x hx => hgood x (.inl hx) (hc.good x hx), ?_, ?_, ?_, hc.exec, hc.able, ?_⟩, ?_⟩
  · intro k hkw hkH
    refine ⟨(hc.stat k hkw hkH).1, (hc.stat k hkw hkH).2.imp id ?_⟩
    rintro ⟨r, hr, ⟨s, hs⟩, h1⟩
    refine ⟨r, hr, Option.ne_none_iff_exists'.1 (hgrow r ⟨k, hkw, .inr (.inr hr)⟩ (by rw [hs]; simp)), h1⟩
  · intro t ht d hd hk
    have htw : Wanted db cfg.targets t := by
      rcases ht with ht | ht
      · exact ht.wanted
      · exact ht.wanted
    exact hgrow d ⟨t, htw, .inr (.inl hd)⟩ (hc.sources t ht d hd hk)
  · intro n s hs
    rw [hf'] at hs
    split at hs
    · rintro rfl; exact hv0 hs
    · exact hc.nz n s hs
  · intro n hn h0
    exact hgrow n hn (hc.mono n hn h0)
  · intro n hn h1
    by_cases hne : fm env m n = fm env (Make.write m (file, value)) n
    · exact hc.new n hn (by rw [hne]; exact h1)
    · obtain ⟨t, ht, _, ha, _⟩ := hchange n hn hne
      exact .inr ⟨t, (hc.idReach ht).wanted, ha⟩
  · intro x hx hxi hH
    have hst : Still cfg db Q H b g x := .inl ⟨.inr ⟨hx, hxi⟩, hH⟩
    exact (hc.made x hx hxi hH).imp (hag.seenLe hst) id
  · intro x hx hr hH
    rcases hc.exact x hx hr hH with h1 | h1
    · exact .inl h1
    · exact .inr ⟨hag.seenLe (.inl ⟨.inl hx, hH⟩) h1.1, hag.attained (.inl ⟨.inl hx, hH⟩) h1.2⟩
  · intro x hx hH h0
    refine hc.self x hx hH (Classical.byContradiction fun h1 => ?_)
    exact hgrow _ ⟨x, (hc.idReach hx).wanted, .inl rfl⟩ h1 h0
  · refine ⟨?_, hc.cache.named, hc.cache.nz, hc.cache.ment⟩
    intro n τ hcn
    rcases hc.cache.right n τ hcn with h1 | h1
    · by_cases hne : fm env m n = fm env (Make.write m (file, value)) n
      · left
        show fm env (Make.write m (file, value)) n = some τ
        rw [← hne]; exact h1
      · right
        obtain ⟨t, ht, hex, ha, _⟩ := hchange n (hc.cache.ment n τ hcn) hne
        rcases hc.cache.named n τ hcn t (hc.idReach ht).wanted ha with h2 | h2 | h2
        · exact .inl ⟨t, ht, hex, h2⟩
        · exact absurd (.inl h2) (hc.execNot ht hex)
        · exact .inr ⟨t, (hc.idReach ht).wanted, h2, ha⟩
    · exact .inr h1
  · intro hd l hl he hH
    have hst : Still cfg db Q H b g l := .inr ⟨hl, he, hH⟩
    obtain ⟨h1, h2, h3⟩ := h.leaf hd l hl he hH
    exact ⟨⟨hag.seenLe hst h1.1, fun hb => hag.attained hst (h1.2 hb)⟩, h2, fun hb hbu => h3 hb (hag.symm.buildable hst hbu)⟩

/-! ### A target has been made -/

theorem cached_filter (n k : Str) (c : List (Str × Nat)) :
    FileInfo.cached n (c.filter (·.1 ≠ k)) = if n = k then none else FileInfo.cached n c := by
  induction c with
  | nil => simp [FileInfo.cached]
  | cons a c ih =>
    obtain ⟨x, τ⟩ := a
    by_cases hx : x = k
    · subst hx
      rw [List.filter_cons_of_neg (by simp), ih]
      by_cases hn : n = x
      · simp [hn]
      · simp [hn, FileInfo.cached, Ne.symm hn]
    · rw [List.filter_cons_of_pos (by simp [hx])]
      simp only [FileInfo.cached]
      by_cases hn : x = n
      · subst hn; simp [hx]
      · simp only [hn, if_false, ih]

theorem PInv.finish (p : Plan env cfg db disk0) (h : PInv env cfg db Q H disk0 b g m) {t : Nat} (ht : t ∈ g.ids)
    (he : g.state t = .executing) (hch : g.children t = []) (hw : ¬ H t → DidWork (fm env m) db t) :
    PInv env cfg db Q H disk0 b (removeLeaf g t) (forget t m) := by
  have hc := h.core
  obtain ⟨q1, q2, q3⟩ := removeLeaf_settle hc.ginv ht hch
  have hname := (hc.weak t (hc.idReach ht).wanted).1
  have hcached : ∀ n, FileInfo.cached n (forget t m).files.cache =
      if n = (db.target t).name then none else FileInfo.cached n m.files.cache := by
    intro n
    show FileInfo.cached n (m.files.cache.filter (·.1 ≠ (m.info t).name)) = _
    rw [cached_filter, hname]
  have hsub : ∀ n τ, FileInfo.cached n (forget t m).files.cache = some τ →
      n ≠ (db.target t).name ∧ FileInfo.cached n m.files.cache = some τ := by
    intro n τ hcn
    rw [hcached] at hcn
    split at hcn
    · cases hcn
    · next hn => exact ⟨hn, hcn⟩
  have h1 : PInv env cfg db Q H disk0 b g (forget t m) := by
    refine h.files rfl rfl ⟨fun n τ hcn => hc.cache.right n τ (hsub n τ hcn).2, fun n τ hcn => hc.cache.named n τ (hsub n τ hcn).2,
      fun n τ hcn => hc.cache.nz n τ (hsub n τ hcn).2, fun n τ hcn => hc.cache.ment n τ (hsub n τ hcn).2⟩
  have hf : fm env (forget t m) = fm env m := rfl
  have hup : ¬ H t → UpToDate (fm env m) db t := by
    intro hH
    obtain ⟨T, hT, hle⟩ := hw hH
    refine ⟨T, hT, fun d hd => ⟨?_, hle d hd⟩⟩
    rcases hd with hd | ⟨_, s, hs⟩
    · exact hc.noMiss p (.inr (hc.idReach ht)) (fun c hn => hc.childSettled ht hch hH hn) hd
    · exact not_missing_of_file hs
  refine ⟨h1.core.drop (gone := [t]) q1 q2 (fun x _ => .inl (by rw [q3])) ?_ ?_, ?_⟩
  · intro x hx hH
    rw [List.mem_singleton] at hx
    subst hx
    obtain ⟨T, hT, hle⟩ := hw hH
    obtain ⟨e1, e2, e3⟩ := hc.exec x ht he hH
    refine ⟨good_of_upToDate (hup hH), ?_, fun hb => absurd hb e3⟩
    cases hfe : (m.info x).fileExists with
    | true =>
      left
      refine ⟨fun T' hT' => ⟨hfe, .inr (e2 hfe)⟩, fun h0 => ?_⟩
      rw [hf, hT] at h0; cases h0
    | false => exact .inr ⟨hfe, e1⟩
  · intro n τ hcn
    obtain ⟨hn, hcn'⟩ := hsub n τ hcn
    rcases hc.cache.right n τ hcn' with h2 | ⟨k, hk, hek, rfl⟩ | h2
    · exact .inl h2
    · refine .inr (.inl ⟨k, ?_, by rw [q3]; exact hek, rfl⟩)
      rw [q2, List.mem_filter, decide_eq_true_eq, List.mem_singleton]
      exact ⟨hk, fun hkt => hn (by rw [hkt])⟩
    · exact .inr (.inr h2)
  · intro hd l hl hle'
    unfold removeLeaf at hd hl
    rw [if_pos ht] at hd hl
    obtain ⟨hd1, hl1⟩ := removeLeafNode_clean hd
    rw [hl1, List.mem_filter] at hl
    rw [q3] at hle'
    exact h1.leaf hd1 l hl.1 hle'

/-- Targets that are hurt are marked. -/
theorem PInv.remark (h : PInv env cfg db Q H disk0 b g m) {g1 : Graph} (hids : g1.ids = g.ids) (hleaves : g1.leaves = g.leaves)
    (hdirty : g1.dirty = g.dirty) (hg : GInv (cfg.deps b) cfg.targets[b]? g1)
    (hex : ∀ x ∈ g.ids, g1.state x = .executing ↔ g.state x = .executing)
    (hst : ∀ x ∈ g.ids, ¬ H x → g1.state x = g.state x) : PInv env cfg db Q H disk0 b g1 m := by
  have hc := h.core
  have hset : ∀ x, Settled cfg db Q H b g1 x ↔ Settled cfg db Q H b g x := by intro x; unfold Settled; rw [hids]
  refine ⟨⟨hc.hurt, hc.edges, hg, hc.weak, hc.stat, hc.sources, hc.nz, hc.mono, hc.new, fun x hx => hc.good x ((hset x).1 hx),
    by rw [hids]; exact hc.made, by rw [hids]; exact hc.exact, by rw [hids]; exact hc.self, ?_, ?_, ?_⟩, ?_⟩
  · intro x hx he
    rw [hids] at hx
    exact hc.exec x hx ((hex x hx).1 he)
  · intro x hx hH
    rw [hids] at hx
    rw [hst x hx hH]
    exact hc.able x hx hH
  · refine ⟨fun n τ hcn => ?_, fun n τ hcn k hk ha => ?_, hc.cache.nz, hc.cache.ment⟩
    · refine (hc.cache.right n τ hcn).imp id (Or.imp ?_ id)
      rintro ⟨k, hk, he, hn⟩
      exact ⟨k, by rw [hids]; exact hk, (hex k hk).2 he, hn⟩
    · rw [hset]; exact hc.cache.named n τ hcn k hk ha
  · intro hd l hl he hH
    rw [hdirty] at hd
    rw [hleaves] at hl
    exact h.leaf hd l hl (fun h' => he ((hex l ((hc.ginv.lv l).1 hl).1).2 h')) hH

/-- The commands of `t` have failed, with `/K`. -/
theorem PInv.fails (p : Plan env cfg db disk0) (h : PInv env cfg db Q H disk0 b g m) {t : Nat} (ht : t ∈ g.ids)
    (he : g.state t = .executing) (hch : g.children t = []) (hxl : ∀ x ∈ g.ids, g.state x = .executing → g.children x = [])
    (hH : H t) (fuel : Nat) :
    PInv env cfg db Q H disk0 b (removeLeaf (markParents fuel g t) t) (forget t m) := by
  have hc := h.core
  obtain ⟨a, b', c, d, e⟩ := markParents_frame fuel g t
  have hin : ∀ a ∈ g.ids, ∀ b ∈ g.parents a, b ∈ g.ids := fun a ha b hb => ((hc.ginv.pa a ha b).1 hb).1
  have hs := fun x => markParents_sound fuel g t x hin ht
  have hg : markParents fuel g t = { g with state := (markParents fuel g t).state } := by
    generalize markParents fuel g t = gg at *
    cases gg
    simp only at *
    simp only [a, b', c, d, e]
  have hgi : GInv (cfg.deps b) cfg.targets[b]? (markParents fuel g t) := by rw [hg]; exact hc.ginv.withState _
  have hex : ∀ x ∈ g.ids, (markParents fuel g t).state x = .executing ↔ g.state x = .executing := by
    intro x hx
    rcases (hs x).1 with h1 | ⟨h1, h2⟩
    · rw [h1]
    · refine ⟨fun h3 => (by rw [h1] at h3; cases h3), fun h3 => ?_⟩
      obtain ⟨_, _, c, hc'⟩ := GInv.parTrans hc.ginv h2
      rw [hxl x hx h3] at hc'
      cases hc'
  have hdep : ∀ x, Wanted db cfg.targets x → DependsTrans (cfg.deps b) x t → H x := by
    intro x hxw hx
    have key : ∀ y, DependsTrans (cfg.deps b) x y → TransGen (Needs db) x y ∧ Wanted db cfg.targets y := by
      intro y hy
      induction hy with
      | single h1 =>
        have := (hc.edges x hxw _).1 h1
        exact ⟨.single this, hxw.tail this⟩
      | tail _ h1 ih =>
        have := (hc.edges _ ih.2 _).1 h1
        exact ⟨ih.1.tail this, ih.2.tail this⟩
    have h1 := (key t hx).1
    clear hx key
    induction h1 using TransGen.head_induction_on with
    | single h1 => exact hc.hurt _ _ h1 hH
    | head h1 _ ih => exact hc.hurt _ _ h1 (ih (hxw.tail h1))
  refine PInv.finish p (h.remark a d e hgi hex ?_) (by rw [a]; exact ht) ((hex t ht).2 he) (by rw [b']; exact hch) (fun hn => absurd hH hn)
  intro x hx hxH
  rcases (hs x).1 with h1 | ⟨_, h2⟩
  · exact h1
  · exact absurd (hdep x (hc.idReach hx).wanted (GInv.parTrans hc.ginv h2).2.1) hxH

/-! ### A new graph -/

theorem static_deps {f : Files} {k : Nat} {x : TInfo} (h : Static f db k x) {d : Str} :
    (d ∈ (db.target k).deps → d ∈ x.deps) ∧ (d ∈ x.deps → d ∈ (db.target k).deps ∨ d ∈ (db.target k).rules) := by
  rcases h.2 with ⟨h1, _, _⟩ | ⟨r, hr, _, _, _, h4⟩
  · rw [h1]; exact ⟨id, .inl⟩
  · refine ⟨fun hd => (h4 d).2 (.inl hd), fun hd => ?_⟩
    rcases (h4 d).1 hd with h5 | rfl
    · exact .inl h5
    · exact .inr hr

theorem Plan.edges (p : Plan env cfg db disk0) (hstat : ∀ k, Wanted db cfg.targets k → Static (fun _ => some 1) db k (m.info k))
    (hd : DepsNow env cfg m b) (t : Nat) (ht : Wanted db cfg.targets t) (k : Nat) :
    DependsOn (cfg.deps b) t k ↔ Needs db t k := by
  unfold DependsOn
  rw [depsNow_mem hd]
  constructor
  · rintro ⟨d, hd1, hd2⟩
    rw [resolve_node p.lookup p.dir] at hd2
    exact p.needs ht ((static_deps (hstat t ht)).2 hd1) hd2
  · rintro ⟨d, hd1, hd2⟩
    exact ⟨d, (static_deps (hstat t ht)).1 hd1, (resolve_node p.lookup p.dir d k).2 hd2⟩

theorem resolve_lost {f : FileInfo.St} (hl : env.lookup = db.lookup) (hd : env.dir = db.dir) {d : Str}
    (hc : FileInfo.cached d f.cache = none) (h0 : f.disk (env.abs d) = none) (h1 : db.lookup d = none)
    (h2 : db.lookup (db.dir ++ '\\' :: d) = none) : resolve env f d = .missing := by
  unfold resolve FileInfo.query
  rw [hl, hd, h1, h2, hc, h0]
  rfl

theorem PInv.fresh (p : Plan env cfg db disk0) {r : Nat} (hr : cfg.targets[b]? = some r) (hb : BuildSpec (cfg.deps b) r g)
    (hdirty : g.dirty = true) (hd : DepsNow env cfg m b) (hurt : ∀ p k, Needs db p k → H k → H p)
    (hweak : ∀ k, Wanted db cfg.targets k → Static (fun _ => some 1) db k (m.info k))
    (hstat : ∀ k, Wanted db cfg.targets k → ¬ H k → Static (fm env m) db k (m.info k)) (hfresh : ∀ k, Fresh (m.info k))
    (hnz : ∀ n s, fm env m n = some s → s ≠ 0)
    (hmono : ∀ n, Mentioned db cfg.targets n → disk0 (env.abs n) ≠ none → fm env m n ≠ none)
    (hnew : ∀ n, Mentioned db cfg.targets n → fm env m n ≠ none → disk0 (env.abs n) ≠ none ∨
      ∃ k, Wanted db cfg.targets k ∧ env.abs n = env.abs (db.target k).name)
    (hsrc : ∀ t, Before cfg db Q b t → ∀ d ∈ (db.target t).deps, (∀ k, ¬ Resolves db d k) → fm env m d ≠ none)
    (hgood : ∀ x, Before cfg db Q b x → ¬ H x → Good (fm env m) db x)
    (hcache : ∀ n τ, FileInfo.cached n m.files.cache = some τ → m.files.disk (env.abs n) = some τ ∨
      ∃ k, Wanted db cfg.targets k ∧ H k ∧ env.abs n = env.abs (db.target k).name)
    (hnamed : ∀ n τ, FileInfo.cached n m.files.cache = some τ → ∀ k, Wanted db cfg.targets k →
      env.abs n = env.abs (db.target k).name → n = (db.target k).name ∨ Before cfg db Q b k ∨ H k)
    (hcnz : ∀ n τ, FileInfo.cached n m.files.cache = some τ → τ ≠ 0)
    (hcm : ∀ n τ, FileInfo.cached n m.files.cache = some τ → Mentioned db cfg.targets n) :
    PInv env cfg db Q H disk0 b g m := by
  have hedge := p.edges hweak hd
  have hids : ∀ x, x ∈ g.ids ↔ Reach cfg db b x := by
    intro x
    rw [hb.ids, edges_reach hedge hr]
    constructor
    · intro h; exact ⟨r, hr, h⟩
    · rintro ⟨r', hr', h⟩
      rw [hr] at hr'; cases hr'; exact h
  have hset : ∀ x, Settled cfg db Q H b g x → Before cfg db Q b x := by
    rintro x ⟨h | ⟨h1, h2⟩, _⟩
    · exact h
    · exact absurd ((hids x).2 h1) h2
  have hunk : ∀ x, g.state x = .unknown := fun x => hb.wf.unknown x
  refine ⟨⟨hurt, hedge, by rw [hr]; exact hb.ginv, hweak, hstat, ?_, hnz, hmono, hnew, fun x hx => hgood x (hset x hx) hx.2, ?_, ?_, ?_, ?_, ?_, ?_⟩,
    fun h => by rw [hdirty] at h; cases h⟩
  · intro t ht d hd' hk
    rcases ht with ht | ht
    · exact hsrc t ht d hd' hk
    · obtain ⟨r', hr', h1⟩ := ht
      rw [hr] at hr'; cases hr'
      have hno := hb.noMissing t ((edges_reach hedge hr).2 h1)
      intro h0
      apply hno
      have htw : Wanted db cfg.targets t := ⟨r, List.mem_of_getElem? hr, h1⟩
      rw [depsNow_mem hd]
      have hcd : FileInfo.cached d m.files.cache = none := by
        cases hcd : FileInfo.cached d m.files.cache with
        | none => rfl
        | some τ =>
          rcases hcache d τ hcd with h2 | ⟨k, hkw, _, ha⟩
          · exact absurd h0 (by rw [show fm env m d = some τ from h2]; simp)
          · exact absurd ((p.un.names t htw d (.inl hd') k hkw).2 ha) (hk k)
      refine ⟨d, (static_deps (hweak t htw)).1 hd', (resolve_lost p.lookup p.dir hcd h0 ?_ ?_)⟩
      · cases hl : db.lookup d with
        | none => rfl
        | some k => exact absurd (.inl hl) (hk k)
      · cases hl : db.lookup (db.dir ++ '\\' :: d) with
        | none => rfl
        | some k =>
          cases hl0 : db.lookup d with
          | none => exact absurd (.inr ⟨hl0, hl⟩) (hk k)
          | some k' => exact absurd (.inl hl0) (hk k')
  · intro x hx hxi; exact absurd ((hids x).2 hx) hxi
  · intro x _ hx _; exact .inl ⟨(hids x).2 hx, hfresh x⟩
  · intro x _ _ _; exact (hfresh x).1
  · intro x _ he; rw [hunk x] at he; cases he
  · intro x _ _; rw [hunk x]; exact NState.noConfusion
  · refine ⟨fun n τ hc => (hcache n τ hc).imp id .inr, fun n τ hc k hk ha => ?_, hcnz, hcm⟩
    rcases hnamed n τ hc k hk ha with h1 | h1 | h1
    · exact .inl h1
    · by_cases hH : H k
      · exact .inr (.inr hH)
      · exact .inr (.inl ⟨.inl h1, hH⟩)
    · exact .inr (.inr h1)

theorem before_succ {x : Nat} (h : Before cfg db Q (b + 1) x) : Before cfg db Q b x ∨ Reach cfg db b x := by
  rcases h with h | ⟨b', hb', h⟩
  · exact .inl (.inl h)
  · rcases Nat.lt_succ_iff_lt_or_eq.1 hb' with h1 | rfl
    · exact .inl (.inr ⟨b', h1, h⟩)
    · exact .inr h

/-- The graph of the next requested target. -/
theorem PInv.next (p : Plan env cfg db disk0) (h : PInv env cfg db Q H disk0 b g m) (he : g.ids = []) {r : Nat} {g' : Graph}
    (hr : cfg.targets[b + 1]? = some r) (hb : BuildSpec (cfg.deps (b + 1)) r g') (hdirty : g'.dirty = true)
    (hd : DepsNow env cfg (invalidate m) (b + 1)) : PInv env cfg db Q H disk0 (b + 1) g' (invalidate m) := by
  have hc := h.core
  have hset : ∀ x, Before cfg db Q (b + 1) x → ¬ H x → Settled cfg db Q H b g x := by
    intro x hx hH
    refine ⟨?_, hH⟩
    rcases before_succ hx with h1 | h1
    · exact .inl h1
    · exact .inr ⟨h1, by rw [he]; simp⟩
  refine PInv.fresh p hr hb hdirty hd hc.hurt hc.weak hc.stat (fun _ => ⟨rfl, rfl⟩) hc.nz hc.mono hc.new
    (fun t ht => hc.sources t (before_succ ht)) (fun x hx hH => hc.good x (hset x hx hH)) ?_ ?_ hc.cache.nz hc.cache.ment
  · intro n τ hcn
    rcases hc.cache.right n τ hcn with h1 | ⟨k, hk, _⟩ | h1
    · exact .inl h1
    · rw [he] at hk; cases hk
    · exact .inr h1
  · intro n τ hcn k hk ha
    refine (hc.cache.named n τ hcn k hk ha).imp id (Or.imp ?_ id)
    rintro ⟨(h1 | ⟨b', hb', h1⟩) | ⟨h1, _⟩, _⟩
    · exact .inl h1
    · exact .inr ⟨b', Nat.lt_succ_of_lt hb', h1⟩
    · exact .inr ⟨b, Nat.lt_succ_self _, h1⟩

theorem PInv.noIds (p : Plan env cfg db disk0) (h : PInv env cfg db Q H disk0 b g m) (hl : g.leaves = []) : g.ids = [] := by
  refine GInv.leaf h.core.ginv (fun r hr x hx hxx => ?_) hl
  have hw : Wanted db cfg.targets x := ⟨r, List.mem_of_getElem? hr, (edges_reach h.core.edges hr).1 hx⟩
  refine p.un.acyclic x hw ?_
  have : ∀ y, DependsTrans (cfg.deps b) x y → TransGen (Needs db) x y := by
    intro y hy
    induction hy with
    | single h1 => exact .single ((h.core.edges x hw _).1 h1)
    | tail _ h1 ih =>
      refine ih.tail ((h.core.edges _ ?_ _).1 h1)
      obtain ⟨r', hr', h2⟩ := hw
      exact ⟨r', hr', h2.trans ih.to_reflTransGen⟩
  exact this x hxx

/-! ### Runs -/

/-- As long as only hurt targets have failed (or some that were in order), all is fine. -/
def Fine (env : Env) (cfg : Cfg) (db : Db) (Q H : Nat → Prop) (disk0 : Str → Option Nat) (j : J) : Prop :=
  j.s.aborted = false → j.s.dead = false →
  (∀ b t, Ev.failed b t ∈ j.s.log → H t ∨ (Wanted db cfg.targets t ∧ ∀ y, ReflTransGen (Needs db) t y → Q y)) →
  PInv env cfg db Q H disk0 j.s.build j.s.g j.m

/-- What is executing and fails is hurt. -/
theorem PInv.failed (h : PInv env cfg db Q H disk0 b g m) {t : Nat} (ht : t ∈ g.ids) (he : g.state t = .executing)
    (hf : H t ∨ (Wanted db cfg.targets t ∧ ∀ y, ReflTransGen (Needs db) t y → Q y)) : H t := by
  rcases hf with hf | hf
  · exact hf
  · apply Classical.byContradiction
    intro hH
    exact (h.core.exec t ht he hH).2.2 (.inl hf)

/-- What jom does itself fails without changing files; only needed if something may be hurt. -/
def Careful (env : Env) (cfg : Cfg) (db : Db) (H : Nat → Prop) (e : Event) : Prop :=
  (cfg.keepGoing = false ∨ ∀ x, ¬ H x) ∨ FailsClean env cfg db e

theorem PInv.writes (p : Plan env cfg db disk0) {busy : List Nat} (hbusy : ∀ t ∈ busy, t ∈ g.ids ∧ g.state t = .executing) :
    ∀ (ws : List (Str × Option Nat)) {m : Mem}, PInv env cfg db Q H disk0 b g m →
    (∀ w ∈ ws, MayWrite env.abs db cfg.targets busy w.1 w.2) → PInv env cfg db Q H disk0 b g (ws.foldl Make.write m) := by
  intro ws
  induction ws with
  | nil => intro m h _; exact h
  | cons w ws ih =>
    intro m h hw
    exact ih (h.write p hbusy (hw w List.mem_cons_self)) fun w' hw' => hw w' (List.mem_cons_of_mem _ hw')

theorem writes_disk (ws : List (Str × Option Nat)) (m : Mem) : (ws.foldl Make.write m).files.disk = changed m.files.disk ws := by
  induction ws generalizing m with
  | nil => rfl
  | cons w ws ih => exact ih _

theorem Fine.build (p : Plan env cfg db disk0) {j : J} (hf : Fine env cfg db Q H disk0 j) (hlg : LogInv cfg j.s) (hne : j.s.avail ≠ []) {asked : Str → Bool}
    {res : StartRes} (writes : List (Str × Option Nat)) {idle : Nat → Prop}
    (hidle : ∀ t, idle t → H t ∨ (Wanted db cfg.targets t ∧ ∀ y, ReflTransGen (Needs db) t y → Q y))
    (hsync : res = .sync false → ∀ t, j.s.next = some t → j.s.aborted = false → (∀ w ∈ writes, MayWrite env.abs db cfg.targets [t] w.1 w.2) ∧
      (¬ idle t → DidWork (fun n => changed j.m.files.disk writes (env.abs n)) db t))
    (hcl : (cfg.keepGoing = false ∨ ∀ x, ¬ H x) ∨ (res = .sync true → ∀ w ∈ writes, MayWrite env.abs db cfg.targets [] w.1 w.2)) :
    Fine env cfg db Q H disk0 (buildNextTarget env cfg asked res writes j) := by
  unfold Make.buildNextTarget Sched.buildNextTarget
  cases hn : j.s.next with
  | none => exact hf
  | some t =>
    simp only
    cases hab : j.s.aborted with
    | true => intro h; simp only [if_true] at h; rw [hab] at h; cases h
    | false =>
      simp only [Bool.false_eq_true, if_false]
      obtain ⟨h1, h2, _⟩ := hlg.nextOk hab t hn
      have hch := hlg.execLeaf t h1 h2
      have hask : j.s.dead = false → (∀ b t, Ev.failed b t ∈ j.s.log → H t ∨ (Wanted db cfg.targets t ∧ ∀ y, ReflTransGen (Needs db) t y → Q y)) →
          PInv env cfg db Q H disk0 j.s.build j.s.g
          { j.m with files := remember env asked ((j.m.info t).name :: (j.m.info t).deps) j.m.files } :=
        fun hd ho => (hf hab hd ho).ask p asked h1 hch
      cases res with
      | throws =>
        cases j.s.avail with
        | nil => exact fun _ => hask
        | cons e rest => intro h; simp [onException, finishBuild] at h
      | running =>
        cases j.s.avail with
        | nil => exact fun _ => hask
        | cons e rest =>
          intro _ hd ho
          refine hask hd fun b t' ht' => ho b t' ?_
          show _ ∈ j.s.log ++ _
          rw [List.mem_append]
          exact .inl ht'
      | sync failed =>
        cases failed with
        | false =>
          cases hav : j.s.avail with
          | nil => exact absurd hav hne
          | cons e rest =>
            intro _ hd0 ho0
            have hcf := childFinished_fields cfg e t false (begin e t rest j.s)
            have hd : (childFinished cfg e t false (begin e t rest j.s)).dead = false := hd0
            have ho : ∀ b t', Ev.failed b t' ∈ (childFinished cfg e t false (begin e t rest j.s)).log →
              H t' ∨ (Wanted db cfg.targets t' ∧ ∀ y, ReflTransGen (Needs db) t' y → Q y) := ho0
            rw [hcf.dead] at hd
            rw [hcf.log] at ho
            have hpi := hask hd fun b t' ht' => ho b t' (by
              rw [List.mem_append]
              left
              show _ ∈ j.s.log ++ _
              rw [List.mem_append]
              exact .inl ht')
            obtain ⟨hw, hdid⟩ := hsync rfl t hn hab
            obtain ⟨g1, hg1, hg2, _⟩ := hcf.g
            simp only [Bool.false_and, Bool.false_eq_true, if_false] at hg1 hg2
            show PInv env cfg db Q H disk0 (childFinished cfg e t false (begin e t rest j.s)).build
              (childFinished cfg e t false (begin e t rest j.s)).g (forget t _)
            rw [hcf.build, hg2, hg1]
            refine (hpi.writes p (busy := [t]) (fun x hx => by rw [List.mem_singleton.1 hx]; exact ⟨h1, h2⟩) writes hw).finish p h1 h2 hch fun hH => ?_
            have hni : ¬ idle t := fun hi => hH (hpi.failed h1 h2 (hidle t hi))
            have := hdid hni
            show DidWork (fun n => (writes.foldl Make.write _).files.disk (env.abs n)) db t
            rw [writes_disk]
            show DidWork (fun n => changed (remember env asked _ j.m.files).disk writes (env.abs n)) db t
            rw [remember_disk]
            exact this
        | true =>
          cases hav : j.s.avail with
          | nil => exact absurd hav hne
          | cons e rest =>
            intro hab0 hd0 ho0
            have hcf := childFinished_fields cfg e t true (begin e t rest j.s)
            have hab2 : (childFinished cfg e t true (begin e t rest j.s)).aborted = false := hab0
            have hd : (childFinished cfg e t true (begin e t rest j.s)).dead = false := hd0
            have ho : ∀ b t', Ev.failed b t' ∈ (childFinished cfg e t true (begin e t rest j.s)).log →
              H t' ∨ (Wanted db cfg.targets t' ∧ ∀ y, ReflTransGen (Needs db) t' y → Q y) := ho0
            rw [hcf.aborted, Bool.or_eq_false_iff] at hab2
            rw [hcf.dead] at hd
            rw [hcf.log] at ho
            have hpi := hask hd fun b t' ht' => ho b t' (by
              rw [List.mem_append]
              left
              show _ ∈ j.s.log ++ _
              rw [List.mem_append]
              exact .inl ht')
            have hH : H t := hpi.failed h1 h2 (ho j.s.build t (by rw [List.mem_append]; right; simp [begin]))
            obtain ⟨g1, hg1, hg2, _⟩ := hcf.g
            have hk : cfg.keepGoing = true := by simpa using hab2.2
            have hw : ∀ w ∈ writes, MayWrite env.abs db cfg.targets [] w.1 w.2 := by
              rcases hcl with (hcl | hcl) | hcl
              · rw [hk] at hcl; cases hcl
              · exact absurd hH (hcl t)
              · exact hcl rfl
            show PInv env cfg db Q H disk0 (childFinished cfg e t true (begin e t rest j.s)).build
              (childFinished cfg e t true (begin e t rest j.s)).g (forget t _)
            rw [hcf.build, hg2, hg1, hk]
            exact (hpi.writes p (busy := []) (fun x hx => by cases hx) writes hw).fails p h1 h2 hch (fun x hx he => hlg.execLeaf x hx he) hH _

/-- The chosen target has not been started before. -/
theorem next_fresh {s : St} (h : LogInv cfg s) (hab : s.aborted = false) {t : Nat} (hn : s.next = some t) : Ev.started s.build t ∉ s.log := by
  intro hs
  obtain ⟨hti, _, htb⟩ := h.nextOk hab t hn
  rcases h.startBusy t hs with h1 | h1
  · exact htb h1
  · exact h.notSettled t hti h1

/-- A target that is made at once is started. -/
theorem sync_started {s : St} {t : Nat} (hn : s.next = some t) (hab : s.aborted = false) (hne : s.avail ≠ []) (failed : Bool) :
    Ev.started s.build t ∈ (Sched.buildNextTarget cfg (.sync failed) s).log := by
  unfold Sched.buildNextTarget
  rw [hn]
  simp only [hab, Bool.false_eq_true, if_false]
  cases hav : s.avail with
  | nil => exact absurd hav hne
  | cons e rest =>
    show _ ∈ (childFinished cfg e t failed (begin e t rest s)).log
    rw [(childFinished_fields cfg e t failed (begin e t rest s)).log, List.mem_append]
    left
    show _ ∈ s.log ++ _
    simp

/-- The targets being made are executing nodes of the graph. -/
theorem busy_exec {s : St} (hi : Inv cfg s) (hab : s.aborted = false) :
    ∀ t ∈ s.busy.map (·.2), t ∈ s.g.ids ∧ s.g.state t = .executing := by
  intro t ht
  rw [List.mem_map] at ht
  obtain ⟨q, hq, rfl⟩ := ht
  rcases hi.lg.busyOk with h1 | h1
  · rw [h1.2.1] at hab; cases hab
  · exact h1 q hq

theorem Fine.startProcesses (p : Plan env cfg db disk0) {j : J} (hf : Fine env cfg db Q H disk0 j) (hi : Inv cfg j.s)
    (hd : j.s.dead = false) (a : Answers) (q : Nat)
    (hclock : ∀ x s, j.m.files.disk x = some s → s ≤ a.now) {idle : Nat → Prop}
    (hidle : ∀ t, idle t → H t ∨ (Wanted db cfg.targets t ∧ ∀ y, ReflTransGen (Needs db) t y → Q y))
    (hsync : a.res = .sync false → ∀ t, (∃ b, Ev.started b t ∈ (startProcesses env cfg a { j with s := { j.s with queued := q } }).s.log ∧
        Ev.started b t ∉ j.s.log) → (∀ w ∈ a.writes, MayWrite env.abs db cfg.targets [t] w.1 w.2) ∧
      (¬ idle t → DidWork (fun n => changed j.m.files.disk a.writes (env.abs n)) db t))
    (hcl : (cfg.keepGoing = false ∨ ∀ x, ¬ H x) ∨ (a.res = .sync true → ∀ w ∈ a.writes, MayWrite env.abs db cfg.targets [] w.1 w.2))
    (hdn : (startProcesses env cfg a { j with s := { j.s with queued := q } }).s.build ≠ j.s.build →
      DepsNow env cfg (startProcesses env cfg a { j with s := { j.s with queued := q } }).m
        (startProcesses env cfg a { j with s := { j.s with queued := q } }).s.build) :
    Fine env cfg db Q H disk0 (startProcesses env cfg a { j with s := { j.s with queued := q } }) := by
  unfold Make.startProcesses at hdn hsync ⊢
  split
  · exact hf
  · next hcond =>
    rw [if_neg hcond] at hdn hsync
    simp only [Bool.or_eq_true, List.isEmpty_iff, not_or, Bool.not_eq_true] at hcond
    obtain ⟨⟨hab, hacq⟩, hav⟩ := hcond
    have hab : j.s.aborted = false := hab
    have hav : j.s.avail ≠ [] := hav
    have hn : j.s.next = none := hi.idle hab hacq
    have hl0 : LogInv cfg { j.s with queued := q } := hi.lg.congr rfl rfl rfl id id rfl rfl rfl rfl (fun _ => rfl)
    obtain ⟨o, ho⟩ := findNext_refine env cfg a (j.s.g.ids.length + 1) { j with s := { j.s with queued := q } } hl0.ginv
    have ho := ho o fun _ _ => ⟨rfl, rfl, rfl⟩
    have hfs := findNext_spec cfg o (j.s.g.ids.length + 1) { j.s with queued := q } hl0 hab hn
    rw [show Sched.findNextTarget cfg o (j.s.g.ids.length + 1) { j.s with queued := q } = _ from ho] at hfs
    have hok : ∀ j', findNextTarget env cfg a (j.s.g.ids.length + 1) { j with s := { j.s with queued := q } } = .ok j' →
        (∀ b t, Ev.failed b t ∈ j.s.log → H t ∨ (Wanted db cfg.targets t ∧ ∀ y, ReflTransGen (Needs db) t y → Q y)) →
        PInv env cfg db Q H disk0 j.s.build j'.s.g j'.m :=
      fun j' he hall => (PInv.findNext p a _ { j with s := { j.s with queued := q } } j' (hf hab hd hall) hclock he).1
    have hgrow := findNext_log cfg o (j.s.g.ids.length + 1) { j.s with queued := q }
    rw [show Sched.findNextTarget cfg o (j.s.g.ids.length + 1) { j.s with queued := q } = _ from ho] at hgrow
    have hnn : ({ j.s with queued := q } : St).next.isNone = true := by show j.s.next.isNone = true; rw [hn]; rfl
    have hon := findNext_onward env cfg a (j.s.g.ids.length + 1) { j with s := { j.s with queued := q } }
    rw [if_pos hnn] at hdn hsync ⊢
    generalize findNextTarget env cfg a (({ j.s with queued := q } : St).g.ids.length + 1) { j with s := { j.s with queued := q } } = res
      at hfs hok hgrow hdn hon hsync
    cases res with
    | error j' => intro h; simp [onException, finishBuild] at h
    | ok j' =>
      simp only at hdn hsync ⊢
      have hdisk : j'.m.files.disk = j.m.files.disk := hon.disk
      have hlog : ∀ e ∈ j.s.log, e ∈ j'.s.log := hon.log
      obtain ⟨⟨f1, f2, _⟩, f4, _⟩ := hfs
      simp only at f1 f2 f4
      have e1 : j'.s.build = j.s.build := by rw [f1]
      have e2 : j'.s.aborted = false := by rw [f1]; exact hab
      have e3 : j'.s.dead = false := by rw [f1]; exact hd
      have e4 : ∀ b t, Ev.failed b t ∈ j.s.log → Ev.failed b t ∈ j'.s.log := by
        obtain ⟨evs, _, hl⟩ := hgrow
        intro b t h
        have hl : j'.s.log = j.s.log ++ evs := hl
        rw [hl, List.mem_append]
        exact .inl h
      have e5 : j'.s.avail = j.s.avail := by rw [f1]
      have e6 : j'.s.busy = j.s.busy := by rw [f1]
      have hfine : Fine env cfg db Q H disk0 j' := by
        intro _ _ h3
        rw [e1]
        exact hok j' rfl fun b t h => h3 b t (e4 b t h)
      split
      · next hsome =>
        split
        · next hzero =>
          refine hfine.build p f2 (by rw [e5]; exact hav) a.writes hidle (fun hr t ht _ => ?_) hcl
          rw [hdisk]
          rw [if_pos hsome, if_pos hzero] at hsync
          refine hsync hr t ⟨j'.s.build, ?_, fun h => ?_⟩
          · rw [hr]
            exact sync_started ht e2 (by rw [e5]; exact hav) false
          · exact next_fresh f2 e2 ht (hlog _ h)
        · exact hfine
      · next hnx =>
        have hnx : j'.s.next = none := by simpa using hnx
        split
        · next hrun =>
          rw [if_neg (by simp [hnx]), if_pos hrun] at hdn
          cases hp : j'.s.pending with
          | nil => exact fun _ _ h3 => hfine e2 e3 h3
          | cons t rest =>
            simp only [hp] at hdn ⊢
            have hb0 : j'.s.busy = [] := by
              rw [e6]
              have h1 := hi.ex.avail_length
              rw [hi.ex.stuckAb hab] at h1
              simp only [St.running, e5] at hrun
              apply List.eq_nil_of_length_eq_zero
              simp only [List.length_nil, Nat.add_zero] at h1
              omega
            have hleaves := f2.noLeaves e2 hnx hb0 (f4 (Nat.lt_succ_self _) hnx)
            have hpend := f2.pend e2
            rw [hp] at hpend
            have hroot : cfg.targets[j'.s.build + 1]? = some t := by
              have := congrArg (·[0]?) hpend
              simpa using this.symm
            intro _ h2 h3
            unfold Sched.rebuild at h2 h3 hdn ⊢
            cases hbd : Graph.build (cfg.deps (j'.s.build + 1)) cfg.fuel t with
            | error e => rw [hbd] at h2; cases h2
            | ok g' =>
              simp only [hbd] at h2 h3 hdn ⊢
              have hpi := hfine e2 e3 h3
              exact hpi.next p (hpi.noIds p hleaves) hroot (build_ok hbd) (build_dirty hbd) (hdn (by rw [e1]; exact Nat.succ_ne_self _))
        · exact hfine

theorem Fine.step (p : Plan env cfg db disk0) {j j' : J} (hf : Fine env cfg db Q H disk0 j) (hi : Inv cfg j.s) {e : Event}
    {idle : Nat → Prop} (hidle : ∀ t, idle t → H t ∨ (Wanted db cfg.targets t ∧ ∀ y, ReflTransGen (Needs db) t y → Q y))
    (hw : PlainBut env cfg db idle j e) (hcl : Careful env cfg db H e) (hs : step env cfg j e = some j')
    (hdn : j'.s.build ≠ j.s.build → DepsNow env cfg j'.m j'.s.build) : Fine env cfg db Q H disk0 j' := by
  cases e with
  | startProcesses a =>
    simp only [Make.step] at hs
    split at hs
    · next hc =>
      have hs' : Make.step env cfg j (.startProcesses a) = some j' := by simp only [Make.step]; rw [if_pos hc]; exact hs
      cases hs
      refine hf.startProcesses p hi hc.1 a _ hw.1 hidle (fun hr t ht => hw.2 hr t ?_) hcl hdn
      obtain ⟨b, h1, h2⟩ := ht
      exact ⟨_, b, hs', h1, h2⟩
    · cases hs
  | grant =>
    simp only [Make.step] at hs
    split at hs
    · cases hs; exact hf
    · cases hs
  | acquired asked res writes w =>
    simp only [Make.step] at hs
    split at hs
    · next hc =>
      have hs' : Make.step env cfg j (.acquired asked res writes w) = some j' := by simp only [Make.step]; rw [if_pos hc]; exact hs
      have hfb : Fine env cfg db Q H disk0 (buildNextTarget env cfg asked res writes
          { j with s := { j.s with acquiring := false, granted := false } }) :=
        Fine.build p (j := { j with s := { j.s with acquiring := false, granted := false } }) hf
          (hi.lg.congr rfl rfl rfl id id rfl rfl rfl rfl (fun _ => rfl)) (hi.ex.acqAvail (hi.ex.gr hc.2.1)) writes hidle (fun hr t ht hab => by
            refine hw hr t ⟨_, j.s.build, hs', ?_, next_fresh hi.lg hab ht⟩
            have hst := sync_started (cfg := cfg) (s := { j.s with acquiring := false, granted := false }) ht hab (hi.ex.acqAvail (hi.ex.gr hc.2.1)) false
            rw [← hr] at hst
            cases hs
            split
            · exact hst
            · exact hst) hcl
      cases hs
      split
      · exact hfb
      · exact hfb
    · cases hs
  | childFinished ex f =>
    simp only [Make.step] at hs
    split at hs
    · cases hs
    · next hd =>
      have hd : j.s.dead = false := by simpa using hd
      cases hfd : j.s.busy.find? (·.1 = ex) with
      | none => rw [hfd] at hs; cases hs
      | some q =>
        obtain ⟨e', t⟩ := q
        rw [hfd] at hs
        cases hs
        have hm := List.mem_of_find?_eq_some hfd
        have he := List.find?_some hfd
        simp only [decide_eq_true_eq] at he
        subst he
        have hc := childFinished_fields cfg e' t f j.s
        intro h1 h2 h3
        simp only at h1 h2 h3 ⊢
        rw [hc.aborted] at h1
        rw [hc.log] at h3
        simp only [Bool.or_eq_false_iff] at h1
        obtain ⟨g1, hg1, hg2, _⟩ := hc.g
        obtain ⟨b1, b2⟩ := busy_exec hi h1.1 t (List.mem_map.2 ⟨(e', t), hm, rfl⟩)
        have hpi := hf h1.1 hd fun b t' ht' => h3 b t' (by rw [List.mem_append]; exact .inl ht')
        cases f with
        | false =>
          simp only [Bool.false_and, Bool.false_eq_true, if_false] at hg1 hg2
          rw [hc.build, hg2, hg1]
          exact hpi.finish p b1 b2 (hi.lg.execLeaf t b1 b2) fun hH => hw rfl t hm fun hid => hH (hpi.failed b1 b2 (hidle t hid))
        | true =>
          have hH : H t := hpi.failed b1 b2 (h3 j.s.build t (by rw [List.mem_append]; right; simp))
          have hk : cfg.keepGoing = true := by simpa using h1.2
          rw [hc.build, hg2, hg1, hk]
          exact hpi.fails p b1 b2 (hi.lg.execLeaf t b1 b2) (fun x hx he => hi.lg.execLeaf x hx he) hH _
  | abortDone =>
    simp only [Make.step] at hs
    split at hs
    · next hc =>
      cases hs
      intro h1
      have h1 : j.s.aborted = false := h1
      have := hi.ex.frames0 h1
      omega
    · cases hs
  | write file value =>
    cases hs
    intro h1 h2 h3
    exact (hf h1 h2 h3).write p (busy_exec hi h1) hw

/-- What is known of the targets and the files before jom does anything. -/
def mem0 (db : Db) (disk0 : Str → Option Nat) : Mem :=
  { info := fun k => record (db.target k), files := { disk := disk0, cache := [] } }

/-- `Q` says that a target was in order at the beginning. -/
def Sure (env : Env) (db : Db) (Q : Nat → Prop) (disk0 : Str → Option Nat) : Prop :=
  ∀ x, Q x → Good (fun n => disk0 (env.abs n)) db x ∧
    ∀ d ∈ (db.target x).deps, (∀ k, ¬ Resolves db d k) → disk0 (env.abs d) ≠ none

/-- Nothing is known. -/
theorem sure_none : Sure env db (fun _ => False) disk0 := fun _ h => h.elim

theorem Fine.start (p : Plan env cfg db disk0) (hQ : Sure env db Q disk0) (hurt : ∀ p k, Needs db p k → H k → H p) {asked : List Str}
    (hd : DepsNow env cfg (mem0 db disk0) 0)
    (ha : AskedNow { s := Sched.init cfg, m := mem0 db disk0 } asked) :
    Fine env cfg db Q H disk0 { s := Sched.init cfg, m := buildAsked env asked (mem0 db disk0) } := by
  have hstat : ∀ f : Files, ∀ k, Wanted db cfg.targets k → Static f db k (record (db.target k)) :=
    fun f k _ => ⟨rfl, .inl ⟨rfl, rfl, rfl⟩⟩
  have hB : ∀ x, Before cfg db Q 0 x → Q x := by
    rintro x (h | ⟨b', hb', _⟩)
    · exact h.2 x .refl
    · omega
  unfold AskedNow at ha
  have key : (Sched.init cfg).dead = false → PInv env cfg db Q H disk0 (Sched.init cfg).build (Sched.init cfg).g
      (mem0 db disk0) := by
    unfold Sched.init
    cases ht : cfg.targets with
    | nil =>
      intro _
      have hW : ∀ x, ¬ Wanted db cfg.targets x := by rintro x ⟨r, hr, _⟩; rw [ht] at hr; cases hr
      have hR : ∀ x, ¬ Reach cfg db 0 x := fun x hx => hW x hx.wanted
      refine ⟨⟨hurt, fun t h => absurd h (hW t), ?_, hstat _, fun k hk _ => hstat _ k hk, ?_, p.un.times, fun _ _ h => h, fun _ _ h => .inl h, ?_,
        fun x hx => absurd hx (hR x), fun x _ hx => absurd hx (hR x), by simp [Graph.empty], by simp [Graph.empty],
        by simp [Graph.empty], ?_⟩, by simp [Graph.empty]⟩
      · rw [ht]; simp only [List.getElem?_nil]; exact ginv_empty ..
      · rintro t (h | h)
        · exact (hQ t (hB t h)).2
        · exact absurd h (hR t)
      · rintro x ⟨h | h, _⟩
        · exact (hQ x (hB x h)).1
        · exact absurd h.1 (hR x)
      · constructor <;> simp [FileInfo.cached, mem0]
    | cons r rest =>
      have hr : cfg.targets[0]? = some r := by rw [ht]; rfl
      intro h
      unfold Sched.rebuild at h ⊢
      cases hbd : Graph.build (cfg.deps 0) cfg.fuel r with
      | error e =>
        simp only [hbd] at h
        cases h
      | ok g' =>
        have hpi : PInv env cfg db Q H disk0 0 g' (mem0 db disk0) := by
          refine PInv.fresh p hr (build_ok hbd) (build_dirty hbd) hd hurt (hstat _) (fun k hk _ => hstat _ k hk) (fun _ => ⟨rfl, rfl⟩) p.un.times (fun _ _ h => h)
            (fun _ _ h => .inl h) (fun t h => (hQ t (hB t h)).2) (fun t h _ => (hQ t (hB t h)).1) ?_ ?_ ?_ ?_
          · intro n τ hc; simp [FileInfo.cached, mem0] at hc
          · intro n τ hc; simp [FileInfo.cached, mem0] at hc
          · intro n τ hc; simp [FileInfo.cached, mem0] at hc
          · intro n τ hc; simp [FileInfo.cached, mem0] at hc
        simp only [hbd]
        exact hpi
  intro _ h _
  exact (key h).buildAsked p ha

/-- All targets have commands that do their work. -/
theorem PlainBehaves.but {j : J} {e : Event} (h : PlainBehaves env cfg db j e) (idle : Nat → Prop) : PlainBut env cfg db idle j e := by
  cases e with
  | startProcesses a => exact ⟨h.1, fun hr => absurd hr h.2⟩
  | acquired asked res writes w => exact fun hr => absurd hr h
  | childFinished e failed => exact fun hf t ht _ => h hf t ht
  | write file value => exact h
  | grant => trivial
  | abortDone => trivial

theorem Run.fineBut (p : Plan env cfg db disk0) (hQ : Sure env db Q disk0) (hurt : ∀ p k, Needs db p k → H k → H p) {idle : Nat → Prop}
    (hidle : ∀ t, idle t → H t ∨ (Wanted db cfg.targets t ∧ ∀ y, ReflTransGen (Needs db) t y → Q y)) {j : J}
    (hr : Run env cfg (fun k => record (db.target k)) disk0 (fun j e => PlainBut env cfg db idle j e ∧ Careful env cfg db H e) j) :
    Fine env cfg db Q H disk0 j := by
  induction hr with
  | start asked hd ha => exact Fine.start p hQ hurt hd ha
  | @step j j' e asked hr' hw hs hdn ha ih =>
    have := ih.step p hr'.reachable.inv hidle hw.1 hw.2 hs hdn
    split
    · intro h1 h2 h3
      exact (this h1 h2 h3).buildAsked p ha
    · exact this

theorem Run.mono {info : Nat → TInfo} {ok ok' : J → Make.Event → Prop} (hok : ∀ j e, ok j e → ok' j e) {j : J}
    (h : Run env cfg info disk0 ok j) : Run env cfg info disk0 ok' j := by
  induction h with
  | start asked hd ha => exact .start asked hd ha
  | step asked _ hw hs hdn ha ih => exact .step asked ih (hok _ _ hw) hs hdn ha

theorem Run.fine (p : Plan env cfg db disk0) (hQ : Sure env db Q disk0) (hurt : ∀ p k, Needs db p k → H k → H p) {j : J}
    (hr : Run env cfg (fun k => record (db.target k)) disk0 (fun j e => PlainBehaves env cfg db j e ∧ Careful env cfg db H e) j) :
    Fine env cfg db Q H disk0 j :=
  Run.fineBut (idle := fun _ => False) p hQ hurt (fun _ h => h.elim) (hr.mono fun _ _ h => ⟨PlainBehaves.but h.1 _, h.2⟩)

/-- Nothing has failed. -/
theorem Run.fineOk (p : Plan env cfg db disk0) (hQ : Sure env db Q disk0) {j : J}
    (hr : Run env cfg (fun k => record (db.target k)) disk0 (PlainBehaves env cfg db) j) (hab : j.s.aborted = false) (hd : j.s.dead = false)
    (ho : j.s.allOk = true) : PInv env cfg db Q (fun _ => False) disk0 j.s.build j.s.g j.m := by
  refine Run.fine p hQ (fun _ _ _ h => h) (hr.mono fun _ _ h => ⟨h, .inl (.inr fun _ h => h)⟩) hab hd fun b t ht => ?_
  have := hr.reachable.inv.lg.allOk.2 ⟨b, t, ht⟩
  rw [ho] at this
  cases this

/-- After exit code 0 everything is in order, and the files fit together. -/
theorem Run.inOrder (p : Plan env cfg db disk0) {j : J}
    (hr : Run env cfg (fun k => record (db.target k)) disk0 (PlainBehaves env cfg db) j) (h0 : 0 ∈ j.s.exits) :
    InOrder (fm env j.m) db cfg.targets ∧ Regular (fm env j.m) db cfg.targets := by
  have hi := hr.reachable.inv
  rcases hi.codes 0 h0 with ⟨h, _⟩ | ⟨_, ⟨h, _⟩ | ⟨h, _⟩⟩ | ⟨hc, hx⟩
  · cases h
  · cases h
  · cases h
  · have hok : j.s.allOk = true := by
      cases ho : j.s.allOk with
      | true => rfl
      | false => rw [ho] at hx; simp at hx
    have hpi := Run.fineOk p sure_none hr hc.ab hc.dead hok
    have hids := hpi.noIds p hc.leaves
    have hpend := hi.lg.pend hc.ab
    rw [hc.pending] at hpend
    have hset : ∀ x, Wanted db cfg.targets x → Before cfg db (fun _ => False) j.s.build x ∨ Reach cfg db j.s.build x := by
      rintro x ⟨r, hr, hx⟩
      obtain ⟨i, hi, hir⟩ := List.getElem_of_mem hr
      have hlen : cfg.targets.length ≤ j.s.build + 1 := by
        have := congrArg List.length hpend
        simp at this
        omega
      have hreach : Reach cfg db i x := ⟨r, by rw [List.getElem?_eq_getElem hi, hir], hx⟩
      rcases Nat.lt_or_ge i j.s.build with h1 | h1
      · exact .inl (.inr ⟨i, h1, hreach⟩)
      · have : i = j.s.build := by omega
        subst this
        exact .inr hreach
    have hsettled : ∀ x, Wanted db cfg.targets x → Settled cfg db (fun _ => False) (fun _ => False) j.s.build j.s.g x := by
      intro x hx
      refine ⟨?_, fun h => h⟩
      rcases hset x hx with h | h
      · exact .inl h
      · exact .inr ⟨h, by rw [hids]; simp⟩
    refine ⟨fun t ht hb => (hpi.core.good t (hsettled t ht)).1 hb, ?_, hpi.core.nz, ?_, ?_⟩
    · intro t ht d hd k hk
      have hkw := ht.tail (p.needs ht hd (.inl hk))
      have := (p.un.names t ht d hd k hkw).1 (.inl hk)
      show j.m.files.disk _ = j.m.files.disk _
      rw [this]
    · intro t ht d hd h1 h2
      refine hpi.core.sources t (hset t ht) d hd ?_
      rintro k (h3 | ⟨_, h3⟩)
      · rw [h1] at h3; cases h3
      · rw [h2] at h3; cases h3
    · intro t ht d hd _ k hk
      exact p.needs ht (.inr hd) (.inl hk)

end Jom.Make
