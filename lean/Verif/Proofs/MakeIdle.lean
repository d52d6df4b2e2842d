/- Builds of makefiles with targets whose commands need not make their file. -/
import Verif.Proofs.MakeSpare
import Verif.Proofs.MakeStale
import Verif.Proofs.MakeSplit

namespace Jom.Make

open Jom.Graph Jom.Sched Jom.UpToDate Jom.Spec Jom.Spec.Build Relation

variable {env : Env} {cfg cfg' : Cfg} {db : Db} {disk0 : Str → Option Nat} {j j' : J} {idle : Nat → Prop}

theorem PCore.unambiguous (p : Plan env cfg db disk0) {Q H : Nat → Prop} {b : Nat} {g : Graph} {m : Mem}
    (h : PCore env cfg db Q H disk0 b g m) : Unambiguous env.abs (fm env m) db cfg.targets where
  names := p.un.names
  distinct := p.un.distinct
  inferred := p.un.inferred
  viaDir := p.un.viaDir
  acyclic := p.un.acyclic
  oneRule := by
    have key : ∀ t, Wanted db cfg.targets t → ∀ r ∈ (db.target t).rules,
        (fm env m r ≠ none ∨ ∃ k, Wanted db cfg.targets k ∧ env.abs r = env.abs (db.target k).name) →
        (disk0 (env.abs r) ≠ none ∨ ∃ k, Wanted db cfg.targets k ∧ env.abs r = env.abs (db.target k).name) := by
      rintro t ht r hr (h1 | h1)
      · exact h.new r ⟨t, ht, .inr (.inr hr)⟩ h1
      · exact .inr h1
    intro t ht r hr r' hr' h1 h2
    exact p.un.oneRule t ht r hr r' hr' (key t ht r hr h1) (key t ht r' hr' h2)
  filled := by
    intro t ht
    rcases p.un.filled t ht with h1 | h1 | h1 | ⟨r, h1, h2⟩
    · exact .inl h1
    · exact .inr (.inl h1)
    · exact .inr (.inr (.inl (h.mono _ ⟨t, ht, .inl rfl⟩ h1)))
    · exact .inr (.inr (.inr ⟨r, h1, h.mono _ ⟨t, ht, .inr (.inr h1)⟩ h2⟩))
  times := h.nz

theorem Unambiguous.sub {abs : Str → Str} {f : Files} {rs rs' : List Nat} (h : Unambiguous abs f db rs) (hs : ∀ r ∈ rs', Wanted db rs r) :
    Unambiguous abs f db rs' := by
  have hw : ∀ {t}, Wanted db rs' t → Wanted db rs t := by
    rintro t ⟨r, hr, ht⟩
    obtain ⟨r', hr', h'⟩ := hs r hr
    exact ⟨r', hr', h'.trans ht⟩
  refine ⟨fun t ht n hn k hk => h.names t (hw ht) n hn k (hw hk), fun k l hk hl => h.distinct k l (hw hk) (hw hl), fun t ht => h.inferred t (hw ht),
    fun t ht => h.viaDir t (hw ht), fun t ht => h.acyclic t (hw ht), ?_, fun t ht => h.filled t (hw ht), h.times⟩
  intro t ht r hr r' hr' h1 h2
  exact h.oneRule t (hw ht) r hr r' hr' (h1.imp id fun ⟨k, hk, he⟩ => ⟨k, hw hk, he⟩) (h2.imp id fun ⟨k, hk, he⟩ => ⟨k, hw hk, he⟩)

/-- The world behaves; with `/K`, recipes that fail before a process has been started change no file. -/
abbrev Decent (env : Env) (cfg : Cfg) (db : Db) (idle : Nat → Prop) (j : J) (e : Event) : Prop :=
  PlainBut env cfg db idle j e ∧ (cfg.keepGoing = true → FailsClean env cfg db e)

theorem Run.decent {info : Nat → TInfo} (h : Run env cfg info disk0 (BehavesBut env cfg db idle) j) : Run env cfg info disk0 (Decent env cfg db idle) j :=
  h.plainBut.mono fun _ _ h => ⟨h.1, fun _ => h.2⟩

theorem Decent.careful {e : Event} (h : Decent env cfg db idle j e) (H : Nat → Prop) : PlainBut env cfg db idle j e ∧ Careful env cfg db H e := by
  refine ⟨h.1, ?_⟩
  cases hk : cfg.keepGoing with
  | false => exact .inl (.inl hk)
  | true => exact .inr (h.2 hk)

/-- What is in order at the beginning, with all it needs, is not made, whether or not the commands of other targets do their work. -/
theorem Run.sparedBut (p : Plan env cfg db disk0)
    (h : Run env cfg (fun k => record (db.target k)) disk0 (Decent env cfg db idle) j) :
    Spared (fun _ x => Wanted db cfg.targets x ∧ ¬ Rests env db disk0 x) j := by
  refine h.spare p (H := Astir env cfg db disk0) (C := fun _ => True) (fun _ _ _ _ hp => hp.stirs p fun _ h => h) (fun _ _ h => h.1.1)
    (fun _ _ _ _ _ _ _ => trivial) (fun j hr _ hab hd => ?_) trivial
  have key : ∀ t, Astir env cfg db disk0 t ∨ (Wanted db cfg.targets t ∧ ∀ y, ReflTransGen (Needs db) t y → AtEase env cfg db disk0 y) :=
    fun t => Classical.or_iff_not_imp_left.2 Classical.not_not.1
  exact Run.fineBut p p.sure (fun _ _ => Astir.up) (fun t _ => key t) (hr.mono fun _ _ h => Decent.careful h _) hab hd fun _ t _ => key t

/-- The end of a build. -/
theorem Run.soundBut (p : Plan env cfg db disk0)
    (h : Run env cfg (fun k => record (db.target k)) disk0 (Decent env cfg db idle) j) (hc : Complete j.s) :
    Unambiguous env.abs (fm env j.m) db cfg.targets ∧
    ∀ x, Wanted db cfg.targets x → (∀ y, ReflTransGen (Needs db) x y → ¬ idle y ∧ ∀ b, Ev.failed b y ∉ j.s.log) →
      Buildable (fm env j.m) db x → UpToDate (fm env j.m) db x := by
  have hi := h.reachable.inv
  have hpi := Run.fineBut (H := fun x => ∃ y, ReflTransGen (Needs db) x y ∧ (idle y ∨ ∃ b, Ev.failed b y ∈ j.s.log)) p sure_none
    (fun q k hn ⟨y, hy, hf⟩ => ⟨y, .head hn hy, hf⟩) (fun t ht => .inl ⟨t, .refl, .inl ht⟩) (h.mono fun _ _ h => Decent.careful h _) hc.ab hc.dead
    fun b t ht => .inl ⟨t, .refl, .inr ⟨b, ht⟩⟩
  refine ⟨hpi.core.unambiguous p, fun x hx hok => ?_⟩
  have hids := hpi.noIds p hc.leaves
  have hpend := hi.lg.pend hc.ab
  rw [hc.pending] at hpend
  refine (hpi.core.good x ⟨?_, fun ⟨y, hy, hb⟩ => ?_⟩).1
  · obtain ⟨r, hr, hx⟩ := hx
    obtain ⟨i, hi, hir⟩ := List.getElem_of_mem hr
    have hlen : cfg.targets.length ≤ j.s.build + 1 := by
      have := congrArg List.length hpend
      simp at this
      omega
    have hreach : Reach cfg db i x := ⟨r, by rw [List.getElem?_eq_getElem hi, hir], hx⟩
    rcases Nat.lt_or_ge i j.s.build with h1 | h1
    · exact .inl (.inr ⟨i, h1, hreach⟩)
    · have : i = j.s.build := by omega
      subst this
      exact .inr ⟨hreach, by rw [hids]; simp⟩
  · rcases hb with hb | ⟨b, hb⟩
    · exact (hok y hy).1 hb
    · exact (hok y hy).2 b hb

end Jom.Make
