import Verif.Model.Whole
import Verif.Proofs.Slashless
import Verif.Props.Build
import Verif.Props.Parser
import Verif.Props.Wildcards

/-! C76: from the text of a makefile to what is executed. -/

namespace Jom.Blocks

open Jom.Blocks Inference

/-- The block is about the target with the key `k`. -/
def Block.isFor (B : Block) (k : Str) : Prop := ∃ t ∈ B.targets, toLower t = k

/-- The targets and their commands come from blocks. -/
def From (bs : List Block) (mk : Mk) : Prop :=
  ∀ k b, find mk.targets k = some b → (∃ B ∈ bs, B.isFor k) ∧ ∀ c ∈ b.cmds, ∃ B ∈ bs, B.isFor k ∧ c ∈ B.cmds

theorem key_noSlash {mk : Mk} {t k : Str} (ht : NoSlash t) (h : mk.key t = some k) : k = toLower t := by
  unfold Mk.key at h
  simp only at h
  split at h
  · cases h; rfl
  · have : (toLower t).map (fun c => if c = '/' then '\\' else c) = toLower t := by
      conv => rhs; rw [← List.map_id (toLower t)]
      apply List.map_congr_left
      intro c hc
      have : c ≠ '/' := by rintro rfl; exact ht (toLower_slash.1 hc)
      simp [this]
    rw [this] at h
    cases hf : find mk.targets (toLower t) with
    | none => rw [hf] at h; cases h
    | some b => rw [hf] at h; cases h; rfl

theorem addDeps_cmds {n : Nat} {b b' : DBlock} {deps : List Str} (h : addDeps n b deps = .ok b') : b'.cmds = b.cmds ∧ b'.name = b.name := by
  unfold addDeps at h
  split at h
  · cases h
  · cases h; exact ⟨rfl, rfl⟩

theorem addCmds_mem {b : DBlock} {can : Bool} {cs : List Command} {c : Command} (h : c ∈ (addCmds b can cs).cmds) : c ∈ b.cmds ∨ c ∈ cs := by
  unfold addCmds at h
  split at h
  · exact Or.inl h
  · split at h
    · simpa using h
    · exact Or.inl h

theorem from_addTarget {bs : List Block} {n : Nat} {deps : List Str} {B : Block} (hB : B ∈ bs) {mk mk' : Mk} {t : Str} (ht : t ∈ B.targets)
    (hs : NoSlash t) (hm : From bs mk) (h : addTarget n deps B.double B.cmds mk t = .ok mk') : From bs mk' := by
  unfold addTarget at h
  split at h
  · cases h; exact hm
  · split at h
    · rename_i key hkey
      split at h
      · cases h; exact hm
      · rename_i b hf
        split at h
        · cases h
        · cases h1 : addDeps n b deps with
          | error e => rw [h1] at h; cases h
          | ok b' =>
            rw [h1] at h
            cases h
            have hk := key_noSlash hs hkey
            intro k d hd
            simp only [find_put] at hd
            split at hd
            · rename_i e
              cases hd
              subst e
              refine ⟨⟨B, hB, t, ht, hk.symm⟩, fun c hc => ?_⟩
              rcases addCmds_mem hc with hc | hc
              · rw [(addDeps_cmds h1).1] at hc
                exact (hm _ _ hf).2 c hc
              · exact ⟨B, hB, ⟨t, ht, hk.symm⟩, hc⟩
            · exact hm k d hd
    · cases h1 : addDeps n { name := t, enabled := B.double } deps with
      | error e => rw [h1] at h; cases h
      | ok b' =>
        rw [h1] at h
        cases h
        have hname : (addCmds b' true B.cmds).name = t := by rw [(addCmds_same _ _ _).1, (addDeps_cmds h1).2]
        intro k d hd
        simp only [Mk.append, find_put, hname] at hd
        split at hd
        · rename_i e
          cases hd
          refine ⟨⟨B, hB, t, ht, e.symm⟩, fun c hc => ?_⟩
          rcases addCmds_mem hc with hc | hc
          · rw [(addDeps_cmds h1).1] at hc
            cases hc
          · exact ⟨B, hB, ⟨t, ht, e.symm⟩, hc⟩
        · exact hm k d hd

theorem from_addTargets {bs : List Block} {n : Nat} {deps : List Str} {B : Block} (hB : B ∈ bs) : ∀ {ts : List Str} {mk mk' : Mk},
    (∀ t ∈ ts, t ∈ B.targets ∧ NoSlash t) → From bs mk → addTargets n deps B.double B.cmds mk ts = .ok mk' → From bs mk'
  | [], mk, mk', _, hm, h => by cases h; exact hm
  | t :: ts, mk, mk', ht, hm, h => by
    unfold addTargets at h
    cases h1 : addTarget n deps B.double B.cmds mk t with
    | error e => rw [h1] at h; cases h
    | ok m =>
      rw [h1] at h
      obtain ⟨g1, g2⟩ := ht t (by simp)
      exact from_addTargets hB (fun x hx => ht x (by simp [hx])) (from_addTarget hB g1 g2 hm h1) h

theorem from_addBlocks {bs0 : List Block} {n : Nat} : ∀ {bs : List Block} {mk mk' : Mk}, (∀ B ∈ bs, B ∈ bs0 ∧ ∀ t ∈ B.targets, NoSlash t) →
    From bs0 mk → addBlocks n mk bs = .ok mk' → From bs0 mk'
  | [], mk, mk', _, hm, h => by cases h; exact hm
  | B :: bs, mk, mk', hb, hm, h => by
    unfold addBlocks at h
    cases h1 : addBlock n mk B with
    | error e => rw [h1] at h; cases h
    | ok m =>
      rw [h1] at h
      obtain ⟨g1, g2⟩ := hb B (by simp)
      refine from_addBlocks (fun x hx => hb x (by simp [hx])) ?_ h
      unfold addBlock at h1
      exact from_addTargets g1 (mk := { mk with sync := (syncLoop (B.deps.length + 1) B.deps 0 0 [] mk.sync).2 }) (fun t ht => ⟨ht, g2 t ht⟩) hm h1

/-- Nothing is lost, and the target is there. -/
theorem covers_addTarget {n : Nat} {deps : List Str} {double : Bool} {cs : List Command} {mk mk' : Mk} {t : Str} (ht : NoSlash t)
    (h : addTarget n deps double cs mk t = .ok mk') :
    (∀ k, find mk.targets k ≠ none → find mk'.targets k ≠ none) ∧ (t ≠ notParallelName → find mk'.targets (toLower t) ≠ none) := by
  unfold addTarget at h
  split at h
  · rename_i e
    cases h
    exact ⟨fun k hk => hk, fun hn => absurd e hn⟩
  · split at h
    · rename_i key hkey
      have hk := key_noSlash ht hkey
      subst hk
      split at h
      · rename_i hf
        exfalso
        unfold Mk.key at hkey
        simp only at hkey
        split at hkey
        · rename_i hf'; rw [hf] at hf'; cases hf'
        · rename_i hf'
          cases hsys : find mk.targets ((toLower t).map fun c => if c = '/' then '\\' else c) with
          | none => rw [hsys] at hkey; cases hkey
          | some b =>
            rw [hsys] at hkey
            simp only [Option.map_some, Option.some.injEq] at hkey
            rw [hkey, hf] at hsys
            cases hsys
      · split at h
        · cases h
        · rename_i b hf _
          cases h1 : addDeps n b deps with
          | error e => rw [h1] at h; cases h
          | ok b' =>
            rw [h1] at h
            cases h
            refine ⟨fun k hk => ?_, fun _ => by rw [find_put_same]; simp⟩
            rw [find_put]
            split
            · simp
            · exact hk
    · cases h1 : addDeps n { name := t, enabled := double } deps with
      | error e => rw [h1] at h; cases h
      | ok b' =>
        rw [h1] at h
        cases h
        have hname : (addCmds b' true cs).name = t := by rw [(addCmds_same _ _ _).1, (addDeps_cmds h1).2]
        simp only [Mk.append, hname]
        refine ⟨fun k hk => ?_, fun _ => by rw [find_put_same]; simp⟩
        rw [find_put]
        split
        · simp
        · exact hk

theorem covers_addTargets {n : Nat} {deps : List Str} {double : Bool} {cs : List Command} : ∀ {ts : List Str} {mk mk' : Mk},
    (∀ t ∈ ts, NoSlash t) → addTargets n deps double cs mk ts = .ok mk' →
    (∀ k, find mk.targets k ≠ none → find mk'.targets k ≠ none) ∧ ∀ t ∈ ts, t ≠ notParallelName → find mk'.targets (toLower t) ≠ none
  | [], mk, mk', _, h => by cases h; exact ⟨fun _ h => h, by simp⟩
  | t :: ts, mk, mk', ht, h => by
    unfold addTargets at h
    cases h1 : addTarget n deps double cs mk t with
    | error e => rw [h1] at h; cases h
    | ok m =>
      rw [h1] at h
      obtain ⟨g1, g2⟩ := covers_addTarget (ht t (by simp)) h1
      obtain ⟨g3, g4⟩ := covers_addTargets (fun x hx => ht x (by simp [hx])) h
      refine ⟨fun k hk => g3 k (g1 k hk), fun x hx hn => ?_⟩
      rcases List.mem_cons.1 hx with rfl | hx
      · exact g3 _ (g2 hn)
      · exact g4 x hx hn

theorem covers_addBlocks {n : Nat} : ∀ {bs : List Block} {mk mk' : Mk}, (∀ B ∈ bs, ∀ t ∈ B.targets, NoSlash t) →
    addBlocks n mk bs = .ok mk' → (∀ k, find mk.targets k ≠ none → find mk'.targets k ≠ none) ∧
      ∀ B ∈ bs, ∀ t ∈ B.targets, t ≠ notParallelName → find mk'.targets (toLower t) ≠ none
  | [], mk, mk', _, h => by cases h; exact ⟨fun _ h => h, by simp⟩
  | B :: bs, mk, mk', hb, h => by
    unfold addBlocks at h
    cases h1 : addBlock n mk B with
    | error e => rw [h1] at h; cases h
    | ok m =>
      rw [h1] at h
      unfold addBlock at h1
      obtain ⟨g1, g2⟩ := covers_addTargets (mk := { mk with sync := (syncLoop (B.deps.length + 1) B.deps 0 0 [] mk.sync).2 }) (hb B (by simp)) h1
      obtain ⟨g3, g4⟩ := covers_addBlocks (fun x hx => hb x (by simp [hx])) h
      refine ⟨fun k hk => g3 k (g1 k hk), fun x hx t ht hn => ?_⟩
      rcases List.mem_cons.1 hx with rfl | hx
      · exact g3 _ (g2 t ht hn)
      · exact g4 x hx t ht hn

end Jom.Blocks

namespace Jom.Props

open Jom.Blocks Jom.Inference Jom.Prepare Jom.Graph Jom.Sched Jom.Make Jom.Parse Jom.Whole Relation
open Jom.Spec
open Jom.Spec.Blocks (canon Enclosed Described)
open Jom.Spec.Setup
open Jom.Spec.Build (NobodyWrites)
open Jom.Spec.Makefile (Item Line Reads Flags blocks rules)

/-- A makefile that jom accepts, with at least one target, and without dependents in double quotes (after the expansion of macros, see `C76_quoted_refuted`). -/
structure Loaded (w : PP.World) (fuel : Nat) (entries : Str → Str → List Str) (dir : Str) (fl : Flags) (active : List Str) (s : PP.St)
    (p : PSt PP.St) (order : List (Str × List Str)) (keys : List Str) (t : Tab) (ids : List Nat) : Prop where
  loads : ∃ (o : List (Str × List Str) → List (Str × List Str)) (k : List Rule → List Str), o p.table.sync = order ∧ k p.rules = keys ∧
    load w fuel entries dir o k fl.silent (!fl.ignore) active s = .ok (p, t, ids)
  perm : order.Perm p.table.sync
  hash : HashOrder p.rules keys
  nonempty : p.table.targets ≠ []
  quotes : ∀ n d, tableSays (applySync p.table order) n = some d → ∀ x ∈ d.deps, ¬ Enclosed x

/-- The requested targets: those of the command line, or the first one of the makefile. -/
def wanted (mk : Mk) (active : List Str) : List Str :=
  if active = [] then ((mk.first.bind (find mk.targets)).map (·.name)).toList else active

section

variable {w : PP.World} {fuel : Nat} {entries : Str → Str → List Str} {fl : Flags} {active : List Str} {s : PP.St}
  {p : PSt PP.St} {order : List (Str × List Str)} {keys : List Str} {t : Tab} {ids : List Nat}
  {dir : Str} {abs : Str → Str} {cfg : Sched.Cfg} {disk : Str → Option Nat} {ok : J → Make.Event → Prop} {j : J}

theorem Loaded.parsed (h : Loaded w fuel entries dir fl active s p order keys t ids) :
    parse (ppSource w fuel) (Wildcards.files entries dir) fuel fl.silent (!fl.ignore) s = .ok p ∧
    setup p.rules p.suffixes order keys active p.table = .ok (t, ids) := by
  obtain ⟨o, k, ho, hk, hl⟩ := h.loads
  clear h
  unfold Whole.load at hl
  split at hl
  · cases hl
  · rename_i p' hp
    split at hl
    · cases hl
    · rename_i t' ids' hs
      cases hl
      rw [ho, hk] at hs
      exact ⟨hp, hs⟩

/-- C76: a makefile that is accepted consists of items, and everything that is known about the start of a build (C70-C73) holds for it. -/
theorem C76_prepared (h : Loaded w fuel entries dir fl active s p order keys t ids) :
    ∃ cut ls is e, Before (ppSource w fuel) cut s ls e ∧ Reads (Wildcards.files entries dir) fl cut ls is ∧ Collected fl is e p ∧
      addBlocks fuel {} (blocks is) = .ok p.table ∧
      Prepared p.table order p.rules p.suffixes keys active (wanted p.table active) t ids := by
  obtain ⟨h1, h2⟩ := h.parsed
  obtain ⟨cut, ls, is, e, g1, g2, g3, g4⟩ := C62_accepted_text h1
  have hn := Makefile.reads_noSlash (fun s f hf => files_native entries dir s f hf) g2
  have hsl := slashless_addBlocks ⟨by simp, by simp⟩ hn g3
  have hsl' := slashless_applySync (order := order) hsl (fun e he => hsl.sync e (h.perm.mem_iff.1 he))
  refine ⟨cut, ls, is, e, g1, g2, g4, g3, ⟨⟨fuel, blocks is, g3, fun b hb => (hn b hb).1⟩, h.nonempty, ?_, ?_, h.hash, rfl, h2⟩⟩
  · intro n d hd x hx
    refine ⟨?_, h.quotes n d hd x hx⟩
    unfold tableSays Mk.target at hd
    cases hk : (applySync p.table order).key n with
    | none => rw [hk] at hd; cases hd
    | some k =>
      rw [hk] at hd
      simp only [Option.bind_some] at hd
      cases hf : find (applySync p.table order).targets k with
      | none => rw [hf] at hd; cases hd
      | some b =>
        rw [hf] at hd
        cases hd
        obtain ⟨k', hk'⟩ := find_in hf
        exact (hsl'.targets _ hk').2 x hx
  · rw [g4.rules]; exact Makefile.reads_defined g2

/-- What there is to build, see C70. -/
theorem Prepared.ready {mk : Mk} {order : List (Str × List Str)} {rules : List Rule} {suffixes keys active names : List Str}
    (h : Prepared mk order rules suffixes keys active names t ids) :
    Ready (tableSays (applySync mk order)) (Candidate rules suffixes) names t.target t.candidates := by
  obtain ⟨n, bs, hr, hn⟩ := h.parsed
  have hkeyed : Keyed mk := addBlocks_keyed _ keyed_empty hn hr
  obtain ⟨_, h2, h3⟩ := prepare_spec hkeyed order (said := tableSays (applySync mk order)) (fun _ => rfl) h.plain rules suffixes keys active
  have hact : ∀ a ∈ active, tableSays (applySync mk order) a ≠ none := by
    intro a ha hx
    cases hf : active.find? fun a => (tableSays (applySync mk order) a).isNone with
    | none =>
      have := List.find?_eq_none.1 hf a ha
      rw [hx] at this
      simp at this
    | some a' =>
      have := h2 h.nonempty a' hf
      rw [h.setup] at this
      cases this
  obtain ⟨g1, g2⟩ := h3 h.nonempty hact names h.names
  have hc : ¬ Cyclic (tableSays (applySync mk order)) names := by
    intro hc
    obtain ⟨x, e, _⟩ := g1 hc
    rw [h.setup] at e
    cases e
  obtain ⟨t', ids', e1, _, e2, e3, e4, _⟩ := g2 hc
  rw [h.setup] at e1
  simp only [Except.ok.injEq, Prod.mk.injEq] at e1
  obtain ⟨rfl, rfl⟩ := e1
  rwa [candidate_iff h.defined h.hash] at e3

/-- C76: whatever is executed comes from the text of the makefile. If a target is started then the makefile consists of items such that this
target has commands, all of which stand in description blocks for this target, or it has none and an inference rule of the makefile
fits. -/
theorem C76_started (h : Loaded w fuel entries dir fl active s p order keys t ids) (ht : cfg.targets = ids)
    (hkg : cfg.keepGoing = true → NoDir t dir ∧ SourcesDeclared t.target t.candidates dir (wanted p.table active))
    (hrun : Run (env t dir abs) cfg (info t) disk ok j) :
    ∃ cut ls is e, Before (ppSource w fuel) cut s ls e ∧ Reads (Wildcards.files entries dir) fl cut ls is ∧
      ∀ (before after : List Ev) (b k : Nat), j.s.log = before ++ Ev.started b k :: after →
        ∃ a d, (wanted p.table active)[b]? = some a ∧ t.entry k = some d ∧ Needed t.target t.candidates dir [a] d ∧
          (d.cmds ≠ [] ∧ (∀ c ∈ d.cmds, ∃ B, .block B ∈ is ∧ (∃ n ∈ B.targets, toLower n = toLower d.name) ∧ c ∈ B.cmds) ∨
            d.cmds = [] ∧ ∃ r, Candidate (rules is) p.suffixes d.name r) ∧
          Ev.started b k ∉ before ∧
          ∀ x ∈ d.deps, ∀ d', Setup.Means t.target dir x = some d' → ∃ k', t.entry k' = some d' ∧ Done before b k' := by
  obtain ⟨cut, ls, is, e, g1, g2, g3, g4, hp⟩ := C76_prepared h
  refine ⟨cut, ls, is, e, g1, g2, fun before after b k hlog => ?_⟩
  obtain ⟨a, d, h1, h2, h3, h4, h5, h6, h7⟩ := C72_started hp ht hkg hrun before after b k hlog
  refine ⟨a, d, h1, h2, h4, ?_, h6, h7⟩
  have hready := hp.ready
  have hn := Makefile.reads_noSlash (fun s f hf => files_native entries dir s f hf) g2
  have hfrom : From (blocks is) p.table :=
    from_addBlocks (fun B hB => ⟨hB, (hn B hB).1⟩) (by intro k b hb; simp [find] at hb) g4
  have hkeyed : Keyed p.table := addBlocks_keyed _ keyed_empty (fun b hb => (hn b hb).1) g4
  have hcand : ∀ r ∈ t.candidates d.name, Candidate p.rules p.suffixes d.name r := by
    intro r hr
    have htidy := hp.known.tidy
    obtain ⟨k, e, q1, q2, q3⟩ := htidy.find_entry h3
    rw [htidy.candidates q1 q2.symm] at hr
    cases hf : find t.rules e.1 with
    | none => rw [hf] at hr; simp at hr
    | some rs =>
      rw [hf] at hr
      simp only [Option.getD_some] at hr
      obtain ⟨b, r1, _, r2⟩ := htidy.rules _ _ hf
      have r3 := find_of_mem htidy.nodup (List.mem_of_getElem? q1)
      rw [r3] at r1
      cases r1
      rw [r2, findRules_iff hp.defined hp.hash] at hr
      rw [← q3]
      exact hr
  by_cases hc : d.cmds = []
  · right
    refine ⟨hc, ?_⟩
    rcases h5 with h5 | h5
    · exact absurd hc h5
    · obtain ⟨r, hr⟩ := List.exists_mem_of_ne_nil _ h5
      have := hcand r hr
      rw [g3.rules] at this
      exact ⟨r, this⟩
  · left
    refine ⟨hc, fun c hcm => ?_⟩
    cases hs : tableSays (applySync p.table order) d.name with
    | none => exact absurd (hready.createdEmpty _ _ hs h3).2.1 hc
    | some d0 =>
      obtain ⟨d', e1, e2⟩ := hready.described _ _ hs
      rw [h3] at e1
      cases e1
      rw [tableSays_eq (applySync_keyed order hkeyed)] at hs
      have hf := applySync_find order p.table (canon d.name)
      cases hb : find (applySync p.table order).targets (canon d.name) with
      | none => rw [hb] at hs; cases hs
      | some b' =>
        rw [hb] at hs hf
        cases hs
        cases hb2 : find p.table.targets (canon d.name) with
        | none => rw [hb2] at hf; cases hf
        | some b2 =>
          rw [hb2] at hf
          simp only [Option.map_some, Option.some.injEq, Prod.mk.injEq] at hf
          have hcmds : d.cmds = b2.cmds := by rw [e2.2.1, ← hf.2]; rfl
          have hname : d.name = b2.name := by rw [e2.1, ← hf.1]; rfl
          rw [hcmds] at hcm
          obtain ⟨B, hB, ⟨n, hn1, hn2⟩, hcB⟩ := (hfrom _ _ hb2).2 c hcm
          obtain ⟨k1, k2⟩ := hkeyed.keys _ _ hb2
          refine ⟨B, ?_, ⟨n, hn1, by rw [hn2, k1, hname]⟩, hcB⟩
          have : ∀ (is : List Item), B ∈ blocks is → Item.block B ∈ is := by
            intro is
            induction is with
            | nil => intro h; cases h
            | cons i is ih =>
              intro h
              cases i with
              | dot => exact List.mem_cons_of_mem _ (ih h)
              | rule => exact List.mem_cons_of_mem _ (ih h)
              | block B' =>
                rcases List.mem_cons.1 h with rfl | h
                · simp
                · exact List.mem_cons_of_mem _ (ih h)
          exact this is hB

theorem mem_blocks {B : Block} : ∀ {is : List Item}, Item.block B ∈ is → B ∈ blocks is
  | [], h => by cases h
  | .dot _ _ :: is, h => by
    rcases List.mem_cons.1 h with h | h
    · cases h
    · exact mem_blocks (is := is) h
  | .rule _ _ :: is, h => by
    rcases List.mem_cons.1 h with h | h
    · cases h
    · exact mem_blocks (is := is) h
  | .block B' :: is, h => by
    rcases List.mem_cons.1 h with h | h
    · cases h; exact List.mem_cons_self
    · exact List.mem_cons_of_mem _ (mem_blocks (is := is) h)

/-- C76: if jom ends with exit code 0 then every target for which there is a description block in the makefile and that is named from a
requested target has been dealt with, and nothing failed. Missing: the cases of C73 (`C73_late_cycle`). -/
theorem C76_exit_zero_partial (h : Loaded w fuel entries dir fl active s p order keys t ids) (ht : cfg.targets = ids) (hd : NoDir t dir)
    (hdecl : SourcesDeclared t.target t.candidates dir (wanted p.table active))
    (hrun : Run (env t dir abs) cfg (info t) disk ok j) (h0 : 0 ∈ j.s.exits) :
    (∀ b k, Ev.failed b k ∉ j.s.log) ∧ j.s.busy = [] ∧
    ∃ cut ls is e, Before (ppSource w fuel) cut s ls e ∧ Reads (Wildcards.files entries dir) fl cut ls is ∧
      ∀ (b : Nat) (a n m : Str) (B : Block), (wanted p.table active)[b]? = some a →
        Named (tableSays (applySync p.table order)) [a] n → .block B ∈ is → m ∈ B.targets → m ≠ c!".NOTPARALLEL" → canon m = canon n →
        ∃ k d, t.entry k = some d ∧ canon d.name = canon m ∧ Done j.s.log b k := by
  obtain ⟨cut, ls, is, e, g1, g2, g3, g4, hp⟩ := C76_prepared h
  obtain ⟨q1, q2, q3⟩ := C73_exit_zero_partial hp ht hd hdecl hrun h0
  refine ⟨q1, q2, cut, ls, is, e, g1, g2, fun b a n m B ha hn hB hm hne hmn => ?_⟩
  have hns := Makefile.reads_noSlash (fun s f hf => files_native entries dir s f hf) g2
  have hkeyed : Keyed p.table := addBlocks_keyed _ keyed_empty (fun b hb => (hns b hb).1) g4
  have hready := hp.ready
  have hB' := mem_blocks hB
  have hfind := (covers_addBlocks (fun B hB => (hns B hB).1) g4).2 B hB' m hm hne
  have hsaid : tableSays (applySync p.table order) n ≠ none := by
    rw [tableSays_eq (applySync_keyed order hkeyed), ← hmn, canon_native ((hns B hB').1 m hm)]
    have hf := applySync_find order p.table (toLower m)
    cases hx : find p.table.targets (toLower m) with
    | none => exact absurd hx hfind
    | some b0 =>
      rw [hx] at hf
      cases hy : find (applySync p.table order).targets (toLower m) with
      | none => rw [hy] at hf; cases hf
      | some b1 => simp
  obtain ⟨d0, hd0⟩ := Option.ne_none_iff_exists'.1 hsaid
  obtain ⟨d, hd1, hd2⟩ := hready.described _ _ hd0
  have hnamed : Named t.target [a] n := by
    clear hd0 hd1 hmn hsaid
    induction hn with
    | requested h => exact .requested h
    | dependent _ h1 h2 ih =>
      obtain ⟨d', e1, e2⟩ := hready.described _ _ h1
      exact .dependent ih e1 ((e2.2.2 _).2 h2)
  obtain ⟨k, hk, hdone⟩ := q3 b a n d ha hnamed hd1
  refine ⟨k, d, hk, ?_, hdone⟩
  rw [hmn]
  exact hp.known.tidy.target_name hd1

/-- C76: if a target that is named from the first requested one has a dependent that is not a target and does not exist, nothing is executed
and the exit code is 2, see C71. -/
theorem C76_missing_partial (h : Loaded w fuel entries dir fl active s p order keys t ids) (ht : cfg.targets = ids) {a n x : Str} {d : Described}
    (ha : (wanted p.table active)[0]? = some a) (hn : Named t.target [a] n) (hd : t.target n = some d) (hx : x ∈ d.deps)
    (hno : Setup.Means t.target dir x = none) (hfile : disk (abs x) = none)
    (hrun : Run (env t dir abs) cfg (info t) disk ok j) : j.s.log = [] ∧ j.s.busy = [] ∧ j.s.exits = [2] := by
  obtain ⟨_, _, _, _, _, _, _, _, hp⟩ := C76_prepared h
  exact C71_missing_partial hp ht ha hn hd hx hno hfile hrun

end

/-! ### A makefile that is read and built -/

namespace WholeCase

def text : Str := c!"X=obj\n.SUFFIXES: .c\n.c.$(X):\n\tcl\napp: foo.obj src/*.x\n\tlink\n"

/-- The folder `src` of the makefile. -/
def entries (path _pattern : Str) : List Str := if path = c!"c:/d/src" then [c!"a.x", c!"b.x"] else []

def start : PP.St := { files := [{ name := c!"m", dir := c!"c:/d", rest := text }] }

def p : PSt PP.St :=
  match Whole.read ppWorld 60 entries c!"c:/d" false true start with
  | .ok p => p
  | .error _ => { src := start }

def result : Option (Tab × List Nat) := (setup p.rules p.suffixes p.table.sync [c!".obj"] [] p.table).toOption

def tab : Tab := (result.map (·.1)).getD { table := {} }

theorem loaded : Loaded ppWorld 60 entries c!"c:/d" {} [] start p p.table.sync [c!".obj"] tab [0] where
  loads := by
    refine ⟨id, fun _ => [c!".obj"], rfl, rfl, ?_⟩
    have h1 : Whole.read ppWorld 60 entries c!"c:/d" false true start = .ok p := by
      have : (match Whole.read ppWorld 60 entries c!"c:/d" false true start with | .ok _ => true | .error _ => false) = true := by decide +kernel
      unfold p
      split at this
      · rename_i h; rw [h]
      · cases this
    have h2 : setup p.rules p.suffixes p.table.sync [c!".obj"] [] p.table = .ok (tab, [0]) := by decide +kernel
    simp only [load, Bool.not_false, h1, id, h2]
  perm := .refl _
  hash := by
    have : p.rules.map (·.toExt) = [c!".obj"] := by decide +kernel
    refine ⟨by decide +kernel, fun k => ?_⟩
    rw [← this]
    simp
  nonempty := by decide +kernel
  quotes := fun n d h x hx => (BuildCase.entries (by decide +kernel) n d h x hx).2

def disk : Str → Option Nat := fun n =>
  if n = c!"foo.c" then some 1 else if n = c!"src\\a.x" then some 2 else if n = c!"src\\b.x" then some 3 else none

def cfg : Sched.Cfg :=
  { jobs := 2, keepGoing := false, buildAll := false, dumpGraph := false, targets := [0], deps := fun _ => firstDeps tab c!"c:/d" disk, fuel := 5 }

def j0 : J :=
  { s := Sched.init cfg
    m := buildAsked (env tab c!"c:/d" toLower) [] { info := info tab, files := { disk := disk, cache := [] } } }

theorem begin : Run (env tab c!"c:/d" toLower) cfg (info tab) disk NobodyWrites j0 := Run.start [] (fun t => rfl) (fun n hn => by cases hn)

/-- The rule is applied, then `app` is linked. -/
def j1 : J := play (env tab c!"c:/d" toLower) cfg j0 [.startProcesses BuildCase.answers, .childFinished 0 false, .startProcesses BuildCase.answers]

theorem run1 : Run (env tab c!"c:/d" toLower) cfg (info tab) disk NobodyWrites j1 := play_run _ begin (by decide +kernel)

theorem log1 : j1.s.log = [.started 0 1, .succeeded 0 1, .started 0 0] := by decide +kernel

example := C76_started loaded rfl (fun h => by cases h) run1

def j2 : J := play (env tab c!"c:/d" toLower) cfg j1 [.childFinished 1 false, .startProcesses BuildCase.answers]

theorem run2 : Run (env tab c!"c:/d" toLower) cfg (info tab) disk NobodyWrites j2 := play_run _ run1 (by decide +kernel)

theorem known : Tidy tab (findRules (calculatePriorities p.suffixes p.rules) [c!".obj"]) := by
  obtain ⟨_, _, _, _, _, _, _, _, hp⟩ := C76_prepared loaded
  exact hp.known.tidy

example := C76_exit_zero_partial loaded rfl (noDir known c!"c:/d" (by decide +kernel)) (sourcesDeclared known c!"c:/d" _ (by decide +kernel)) run2
  (by decide +kernel)

/-- Without `src\b.x` on the disk. -/
def disk' : Str → Option Nat := fun n => if n = c!"foo.c" then some 1 else if n = c!"src\\a.x" then some 2 else none

def cfg' : Sched.Cfg := { cfg with deps := fun _ => firstDeps tab c!"c:/d" disk' }

def j0' : J :=
  { s := Sched.init cfg'
    m := buildAsked (env tab c!"c:/d" toLower) [] { info := info tab, files := { disk := disk', cache := [] } } }

example : j0'.s.exits = [2] := by
  have h : Run (env tab c!"c:/d" toLower) cfg' (info tab) disk' NobodyWrites j0' := Run.start [] (fun t => rfl) (fun n hn => by cases hn)
  have hno : Setup.Means tab.target c!"c:/d" c!"src\\b.x" = none := by decide +kernel
  have hd : tab.target c!"app" = some ⟨c!"app", [c!"foo.obj", c!"src\\a.x", c!"src\\b.x"], [{ cmd := { line := c!"link" } }]⟩ := by decide +kernel
  exact (C76_missing_partial loaded rfl (a := c!"app") (by decide +kernel) (.requested (by simp)) hd (x := c!"src\\b.x") (by simp) hno (by decide +kernel) h).2.2

end WholeCase

/-! ### Names with blanks -/

namespace QuotedCase

def text : Str := c!"\"my app.exe\": $$(@:exe=obj)\n\tlink\n\"my app.obj\":\n\tcl\n"

def start : PP.St := { files := [{ name := c!"m", dir := c!"c:/d", rest := text }] }

def p : PSt PP.St :=
  match Whole.read ppWorld 60 (fun _ _ => []) c!"c:/d" false true start with
  | .ok p => p
  | .error _ => { src := start }

def tab : Tab := (((setup p.rules p.suffixes p.table.sync [] [] p.table).toOption).map (·.1)).getD { table := {} }

theorem loads : load ppWorld 60 (fun _ _ => []) c!"c:/d" id (fun _ => []) false true [] start = .ok (p, tab, [0]) := by
  have h1 : Whole.read ppWorld 60 (fun _ _ => []) c!"c:/d" false true start = .ok p := by
    have : (match Whole.read ppWorld 60 (fun _ _ => []) c!"c:/d" false true start with | .ok _ => true | .error _ => false) = true := by
      decide +kernel
    unfold p
    split at this
    · rename_i h; rw [h]
    · cases this
  have h2 : setup p.rules p.suffixes p.table.sync [] [] p.table = .ok (tab, [0]) := by decide +kernel
  simp only [load, h1, id, h2]

/-- All files exist whose names are without double quotes, as on Windows. -/
def disk : Str → Option Nat := fun n => if '"' ∈ n then none else some 1

def cfg : Sched.Cfg :=
  { jobs := 2, keepGoing := false, buildAll := false, dumpGraph := false, targets := [0], deps := fun _ => firstDeps tab c!"c:/d" disk, fuel := 5 }

def j0 : J :=
  { s := Sched.init cfg
    m := buildAsked (env tab c!"c:/d" toLower) [] { info := info tab, files := { disk := disk, cache := [] } } }

end QuotedCase

/-- C76 fails for names with blanks: in
```
"my app.exe": $$(@:exe=obj)
	link
"my app.obj":
	cl
```
the dependent becomes `"my app.obj"` with quotes that belong to the name, so that neither the target nor the file `my app.obj` is
found. Nothing is executed and the exit code is 2, whatever files there are. -/
theorem C76_quoted_refuted : ∃ (w : PP.World) (s : PP.St) (p : PSt PP.St) (t : Tab) (ids : List Nat) (cfg : Sched.Cfg) (disk : Str → Option Nat) (j : J),
    (s.files.map (·.rest) = [c!"\"my app.exe\": $$(@:exe=obj)\n\tlink\n\"my app.obj\":\n\tcl\n"]) ∧
    load w 60 (fun _ _ => []) c!"c:/d" id (fun _ => []) false true [] s = .ok (p, t, ids) ∧ cfg.targets = ids ∧
    (∃ d, t.target c!"my app.exe" = some d ∧ t.entry 0 = some d ∧ d.cmds ≠ [] ∧ d.deps = [c!"\"my app.obj\""]) ∧
    (∃ d, t.target c!"my app.obj" = some d ∧ d.cmds ≠ []) ∧ (∀ n, '"' ∉ n → disk n ≠ none) ∧
    Run (env t c!"c:/d" toLower) cfg (info t) disk NobodyWrites j ∧ j.s.log = [] ∧ j.s.exits = [2] := by
  refine ⟨ppWorld, QuotedCase.start, QuotedCase.p, QuotedCase.tab, [0], QuotedCase.cfg, QuotedCase.disk, QuotedCase.j0, rfl, QuotedCase.loads, rfl,
    ⟨⟨c!"my app.exe", [c!"\"my app.obj\""], [{ cmd := { line := c!"link" } }]⟩, by decide +kernel, by decide +kernel, by simp, rfl⟩,
    ⟨⟨c!"my app.obj", [], [{ cmd := { line := c!"cl" } }]⟩, by decide +kernel, by simp⟩, ?_,
    Run.start [] (fun t => rfl) (fun n hn => by cases hn), by decide +kernel, by decide +kernel⟩
  intro n hn
  simp [QuotedCase.disk, hn]

namespace ReplacedCase

def text : Str := c!".c.obj:\n\tcc\n\"my app.exe\": $$(@:exe=obj)\n\tlink\n\"my app.obj\":\n\tml\n"

def start : PP.St := { files := [{ name := c!"m", dir := c!"c:/d", rest := text }] }

def p : PSt PP.St :=
  match Whole.read ppWorld 60 (fun _ _ => []) c!"c:/d" false true start with
  | .ok p => p
  | .error _ => { src := start }

def keys : List Str := [c!".obj"]

def active : List Str := [c!"my app.obj", c!"my app.exe"]

def tab : Tab := (((setup p.rules p.suffixes p.table.sync keys active p.table).toOption).map (·.1)).getD { table := {} }

theorem loads : load ppWorld 60 (fun _ _ => []) c!"c:/d" id (fun _ => keys) false true active start = .ok (p, tab, [1, 0]) := by
  have h1 : Whole.read ppWorld 60 (fun _ _ => []) c!"c:/d" false true start = .ok p := by
    have : (match Whole.read ppWorld 60 (fun _ _ => []) c!"c:/d" false true start with | .ok _ => true | .error _ => false) = true := by
      decide +kernel
    unfold p
    split at this
    · rename_i h; rw [h]
    · cases this
  have h2 : setup p.rules p.suffixes p.table.sync keys active p.table = .ok (tab, [1, 0]) := by decide +kernel
  simp only [load, h1, id, h2]

end ReplacedCase

/-- C76 fails for names with blanks in a second way: in
```
.c.obj:
	cc
"my app.exe": $$(@:exe=obj)
	link
"my app.obj":
	ml
```
an inference rule fits the dependent `"my app.obj"`, which is not found because of its quotes; the target that is created for it takes the place of the one
described in the makefile. When the targets `my app.obj` and `my app.exe` are built, the first one has lost its command `ml`, and the
inference rule is its only way to be made. -/
theorem C76_replaced_refuted : ∃ (w : PP.World) (s : PP.St) (p : PSt PP.St) (t : Tab),
    (s.files.map (·.rest) = [c!".c.obj:\n\tcc\n\"my app.exe\": $$(@:exe=obj)\n\tlink\n\"my app.obj\":\n\tml\n"]) ∧
    load w 60 (fun _ _ => []) c!"c:/d" id (fun _ => [c!".obj"]) false true [c!"my app.obj", c!"my app.exe"] s = .ok (p, t, [1, 0]) ∧
    (∃ b, p.table.target c!"my app.obj" = some b ∧ b.cmds = [{ cmd := { line := c!"ml" } }]) ∧
    (∃ d, t.entry 1 = some d ∧ t.target c!"my app.obj" = some d ∧ d.name = c!"my app.obj" ∧ d.cmds = []) ∧
    (t.candidates c!"my app.obj").map (·.commands.map (·.cmd.line)) = [[c!"cc"]] :=
  ⟨ppWorld, ReplacedCase.start, ReplacedCase.p, ReplacedCase.tab, rfl, ReplacedCase.loads,
    ⟨⟨c!"my app.obj", [], [{ cmd := { line := c!"ml" } }], false⟩, by decide +kernel, rfl⟩,
    ⟨⟨c!"my app.obj", [], []⟩, by decide +kernel, by decide +kernel, rfl, rfl⟩, by decide +kernel⟩

end Jom.Props
