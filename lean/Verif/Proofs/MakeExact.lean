/- Exactly what a successful build makes. -/
import Verif.Proofs.MakeStale
import Verif.Proofs.MakeSpare

namespace Jom.Make

open Jom.Graph Jom.Sched Jom.UpToDate Jom.Spec Jom.Spec.Build Relation

variable {env : Env} {cfg : Cfg} {db : Db} {disk0 : Str → Option Nat} {j : J}

/-- A time that is later than all times at the beginning. -/
def AfterAll (disk0 : Str → Option Nat) (τ : Nat) : Prop := ∀ x s, disk0 x = some s → s < τ

/-- What is out of date has a new file at the end, and so has what depends on it. -/
theorem Moved.spread (p : Plan env cfg db disk0) (hm : Moved env cfg db disk0 j) {x y : Nat}
    (hord : ∀ k, ReflTransGen (Needs db) x k → Buildable (fm env j.m) db k → UpToDate (fm env j.m) db k)
    (hplain : ∀ k, ReflTransGen (Needs db) x k → ¬ Buildable (fm env j.m) db k → disk0 (env.abs (db.target k).name) ≠ none → ∀ y, ¬ Needs db k y)
    (hx : Wanted db cfg.targets x) (hxy : ReflTransGen (Needs db) x y) (hb : Buildable (fm env j.m) db y)
    (hu : ¬ UpToDate (fun n => disk0 (env.abs n)) db y) :
    (Buildable (fm env j.m) db x → ∃ τ b, fm env j.m (db.target x).name = some τ ∧ AfterAll disk0 τ ∧ Ev.started b x ∈ j.s.log) ∧
    ∀ q d, Wanted db cfg.targets q → d ∈ (db.target q).deps → Resolves db d x → ∃ τ, Behind (fm env j.m) db d τ ∧ AfterAll disk0 τ := by
  have hgrow : ∀ n, Mentioned db cfg.targets n → fm env j.m n = disk0 (env.abs n) ∨
      ∃ τ, fm env j.m n = some τ ∧ ∀ (x : Str) s, disk0 (env.abs x) = some s → s < τ := by
    intro n hn
    refine (hm n hn).imp id ?_
    rintro ⟨τ, _, _, h1, h2, _⟩
    exact ⟨τ, h1, fun x s => h2 _ s⟩
  -- the file of a target changes only if the target is made
  have own : ∀ x, Wanted db cfg.targets x → fm env j.m (db.target x).name ≠ disk0 (env.abs (db.target x).name) →
      ∃ τ b, fm env j.m (db.target x).name = some τ ∧ AfterAll disk0 τ ∧ Ev.started b x ∈ j.s.log := by
    intro x hx hne
    rcases hm _ ⟨x, hx, .inl rfl⟩ with h1 | ⟨τ, k, b, h1, h2, h3, h4, h5⟩
    · exact absurd h1 hne
    · have := p.un.distinct x k hx h3 h4
      subst this
      exact ⟨τ, b, h1, h2, h5⟩
  have same : ∀ {q d x}, Wanted db cfg.targets q → d ∈ (db.target q).deps → Resolves db d x → Wanted db cfg.targets x →
      fm env j.m d = fm env j.m (db.target x).name := by
    intro q d x hq hd hr hx
    have := (p.un.names q hq d (.inl hd) x hx).1 hr
    show j.m.files.disk (env.abs d) = j.m.files.disk (env.abs (db.target x).name)
    rw [this]
  induction hxy using ReflTransGen.head_induction_on with
  | refl =>
    have hne : fm env j.m (db.target y).name ≠ disk0 (env.abs (db.target y).name) := fun he =>
      hu (p.stale_upToDate (f' := fm env j.m) hgrow hx he (hord y .refl hb))
    obtain ⟨τ, b, h1, h2, h3⟩ := own y hx hne
    exact ⟨fun _ => ⟨τ, b, h1, h2, h3⟩, fun q d hq hd hr => ⟨τ, .file ((same hq hd hr hx).trans h1), h2⟩⟩
  | @head x k hxk _ ih =>
    obtain ⟨d', hd', hr'⟩ := hxk
    have hk : Wanted db cfg.targets k := hx.tail ⟨d', hd', hr'⟩
    obtain ⟨s, hs, hl⟩ := (ih (fun z hz => hord z (.head ⟨d', hd', hr'⟩ hz)) (fun z hz => hplain z (.head ⟨d', hd', hr'⟩ hz)) hk).2 x d' hx hd' hr'
    have hmade : Buildable (fm env j.m) db x → ∃ τ b, fm env j.m (db.target x).name = some τ ∧ AfterAll disk0 τ ∧ Ev.started b x ∈ j.s.log := by
      intro hbx
      obtain ⟨T, hT, hT'⟩ := hord x .refl hbx
      refine own x hx fun he => ?_
      rw [hT] at he
      have h1 := (hT' d' (.inl hd')).2 s hs
      have h2 := hl _ T he.symm
      omega
    refine ⟨hmade, fun q d hq hd hr => ?_⟩
    by_cases hbx : Buildable (fm env j.m) db x
    · obtain ⟨τ, _, h1, h2, _⟩ := hmade hbx
      exact ⟨τ, .file ((same hq hd hr hx).trans h1), h2⟩
    · by_cases he : fm env j.m (db.target x).name = disk0 (env.abs (db.target x).name)
      · have h0 : disk0 (env.abs (db.target x).name) = none := by
          apply Classical.byContradiction
          intro h0
          exact hplain x .refl hbx h0 k ⟨d', hd', hr'⟩
        have hlk : db.lookup d = some x := by
          rcases hr with hr | ⟨h1, h2⟩
          · exact hr
          · exact absurd (.inl (p.un.viaDir q hq d hd h1 x (.inr ⟨h1, h2⟩))) hbx
        exact ⟨s, .behind ((same hq hd hr hx).trans (he.trans h0)) hlk hd' hs, hl⟩
      · obtain ⟨τ, _, h1, h2, _⟩ := own x hx he
        exact ⟨τ, .file ((same hq hd hr hx).trans h1), h2⟩

/-- What has been made had commands or an existing file to be made from. -/
theorem Run.startedBuildable (p : Plan env cfg db disk0)
    (h : Run env cfg (fun k => record (db.target k)) disk0 (PlainBehaves env cfg db) j) (hc : Complete j.s) (hok : j.s.allOk = true)
    {b x : Nat} (hs : Ev.started b x ∈ j.s.log) (hx : Wanted db cfg.targets x) : Buildable (fm env j.m) db x := by
  have hpi := Run.fineOk p sure_none h hc.ab hc.dead hok
  have hcm := h.recorded.armed.2 b x hs
  rcases (hpi.core.stat x hx (fun h => h)).2 with ⟨_, h1, _⟩ | ⟨r, hr, h1, _⟩
  · exact .inl (h1.symm.trans hcm)
  · exact .inr ⟨r, hr, h1⟩

theorem complete_zero {s : St} (hi : Sched.Inv cfg s) (h0 : 0 ∈ s.exits) : Complete s ∧ s.allOk = true := by
  rcases hi.codes 0 h0 with ⟨h, _⟩ | ⟨_, ⟨h, _⟩ | ⟨h, _⟩⟩ | ⟨hc, hx'⟩
  · cases h
  · cases h
  · cases h
  · refine ⟨hc, ?_⟩
    cases ho : s.allOk with
    | true => rfl
    | false => rw [ho] at hx'; simp at hx'

/-- Exactly what is made. -/
theorem Run.exactly (p : Plan env cfg db disk0)
    (h : Run env cfg (fun k => record (db.target k)) disk0 (fun j e => PlainBehaves env cfg db j e ∧ PlainLater disk0 e) j) (h0 : 0 ∈ j.s.exits)
    (hplain : ∀ k, Wanted db cfg.targets k → ¬ Buildable (fm env j.m) db k → disk0 (env.abs (db.target k).name) ≠ none → ∀ y, ¬ Needs db k y)
    (x : Nat) :
    (∃ b, Ev.started b x ∈ j.s.log) ↔ Wanted db cfg.targets x ∧ Buildable (fm env j.m) db x ∧
      ∃ y, ReflTransGen (Needs db) x y ∧ Buildable (fm env j.m) db y ∧ ¬ UpToDate (fun n => disk0 (env.abs n)) db y := by
  have hrun := h.mono (ok' := PlainBehaves env cfg db) fun _ _ h => h.1
  obtain ⟨hc, hok⟩ := complete_zero hrun.reachable.inv h0
  have hm := h.moved p hc.ab hc.dead hok
  constructor
  · rintro ⟨b, hs⟩
    obtain ⟨hw, hne⟩ := Run.spared p hrun (.inr hok) b x hs
    refine ⟨hw, hrun.startedBuildable p hc hok hs hw, ?_⟩
    apply Classical.byContradiction
    intro hno
    refine hne fun y hy hb => ?_
    apply Classical.byContradiction
    intro hu
    refine hno ⟨y, hy, ?_, hu⟩
    refine stale_buildable (f := fun n => disk0 (env.abs n)) (cfg := cfg) (fun n hn => ?_) (let ⟨r, hr, h⟩ := hw; ⟨r, hr, h.trans hy⟩) hb
    refine (hm n hn).imp id ?_
    rintro ⟨τ, _, _, h1, h2, _⟩
    exact ⟨τ, h1, fun x s => h2 _ s⟩
  · rintro ⟨hw, hb, y, hy, hby, hu⟩
    obtain ⟨_, b, _, _, h1⟩ := (hm.spread p (fun k hk => (hrun.inOrder p h0).1 k (hw.down hk)) (fun k hk => hplain k (hw.down hk)) hw hy hby hu).1 hb
    exact ⟨b, h1⟩

end Jom.Make
