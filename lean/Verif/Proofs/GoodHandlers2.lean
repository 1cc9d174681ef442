import Verif.Proofs.GoodHandlers
import Mathlib.Data.List.Perm.Subperm
import Verif.Proofs.Chokes

/-! The State of a node in a good round: proposals, new rounds, own votes, commits. -/

set_option linter.unusedSimpArgs false
set_option linter.unusedVariables false
set_option linter.unusedSectionVars false

namespace Overlord.Good
open M Spec

variable {T : Type} [ContentCodec T] [DecidableEq T] {g : GoodRound T} {P : Option (SignedProposal T)}

theorem enc_wal (hE : Encodes T) (w : WalInfo T) : ∃ b, encWalInfo w = some b := by
  unfold encWalInfo
  cases hl : w.lock with
  | none => exact ⟨_, rfl⟩
  | some l =>
    obtain ⟨b, hb⟩ := Option.isSome_iff_exists.1 (hE l.content)
    exact ⟨_, by simp only [encWalLock?, encWalLock, hb, Option.map_some]; rfl⟩

theorem enc_prop (hE : Encodes T) (p : Proposal T) : ∃ b, encProposal p = some b := by
  obtain ⟨b, hb⟩ := Option.isSome_iff_exists.1 (hE p.content)
  exact ⟨_, by simp only [encProposal, hb, Option.map_some]; rfl⟩

theorem wp_saveOk (hE : Encodes T) {e : Env T} (he : GoodEnv g e) {s : State T} {l : List (Effect T)} {step : Step} {lock : Option (WalLock T)}
    {Q : Unit → World T → Prop} {E : Err → World T → Prop}
    (h : Q () ⟨s, l ++ [.saveWal (walRec s step lock) true]⟩) : wp (saveWal step lock) e ⟨s, l⟩ Q E := by
  refine wp_saveWal (fun hn => ?_) (fun b _ hb => ?_) (fun _ _ _ => h)
  · obtain ⟨b, hb⟩ := enc_wal hE (walRec s step lock)
    rw [hb] at hn; cases hn
  · rw [he.saves] at hb; cases hb

theorem wp_saveLROk (hE : Encodes T) {e : Env T} (he : GoodEnv g e) {s : State T} {l : List (Effect T)} {step : Step} {lr : Option Nat}
    (hl : LockStored s lr)
    {Q : Unit → World T → Prop} {E : Err → World T → Prop}
    (h : ∀ lock, Q () ⟨s, l ++ [.saveWal (walRec s step lock) true]⟩) : wp (saveWalWithLockRound step lr) e ⟨s, l⟩ Q E := by
  unfold saveWalWithLockRound
  rw [wp_bind, wp_get]
  cases lr with
  | none => exact wp_saveOk hE he (h _)
  | some x =>
    obtain ⟨qc, c, h1, h2⟩ := hl
    dsimp only
    rw [h1]
    dsimp only
    rw [h2]
    wps
    refine ⟨fun c' hc => ?_, fun hc => by cases hc⟩
    cases hc
    exact wp_saveOk hE he (h _)

theorem wp_fromOk {e : Env T} {s : State T} {l : List (Effect T)} {f : FromWhere} (hf : FromStored s f)
    {Q : Unit → World T → Prop} {E : Err → World T → Prop}
    (h : ∀ u, Q () ⟨{ s with updateFrom := u }, l⟩) : wp (setUpdateFrom f) e ⟨s, l⟩ Q E := by
  unfold setUpdateFrom
  cases f with
  | prevoteQC r =>
    obtain ⟨qc, hq⟩ := hf
    wps
    rw [hq]
    exact ⟨fun qc' hq' => by cases hq'; exact h _, fun _ hx => by cases hx⟩
  | precommitQC r =>
    wps
    refine ⟨fun _ => h _, fun hr => ?_⟩
    rcases hf with hf | ⟨qc, hq⟩
    · exact absurd hf hr
    · rw [hq]
      exact ⟨fun qc' hq' => by cases hq'; exact h _, fun _ hx => by cases hx⟩
  | chokeQC r =>
    obtain ⟨qc, hq⟩ := hf
    wps
    rw [hq]
    exact ⟨fun qc' hq' => by cases hq'; exact h _, fun hx => by cases hx⟩

theorem wp_isProposerOk {e : Env T} {s : State T} {l : List (Effect T)} {p : Address}
    (hp : s.authority.getProposer e.mode s.height s.round = .ok p)
    {Q : Bool → World T → Prop} {E : Err → World T → Prop}
    (h : Q (decide (p = s.address)) ⟨{ s with isLeader := decide (p = s.address), leaderAddress := p }, l⟩) :
    wp isProposer e ⟨s, l⟩ Q E := by
  unfold isProposer
  wps
  rw [hp]
  refine ⟨fun p' hp' => ?_, fun x hx => (by cases hx)⟩
  cases hp'
  refine ⟨fun hq => ?_, fun hq => ?_⟩
  · simp only [hq, decide_true] at h; exact h
  · simp only [hq, decide_false] at h; exact h

theorem prop_insert {c : ProposalCollector T} {h r : Nat} {sp : SignedProposal T}
    (hc : ∀ old, c.get h r = .ok old → old = sp) :
    ∃ c', c.insert h r sp = .ok c' ∧ c'.get h r = .ok sp := by
  unfold ProposalCollector.insert
  dsimp only
  split
  · rename_i old ho
    have hold : c.get h r = .ok old := by
      unfold ProposalCollector.get
      cases hg : AMap.get? c h with
      | none => rw [hg] at ho; simp at ho
      | some rc => rw [hg] at ho; simp only [Option.getD_some] at ho; simp [ho]
    have := hc old hold
    rw [if_pos this]
    exact ⟨c, rfl, by rw [hold, this]⟩
  · refine ⟨_, rfl, ?_⟩
    unfold ProposalCollector.get
    simp only [AMap.get?_insert_self, Option.bind_some]

theorem prop_insert_other {c c' : ProposalCollector T} {h r h' r' : Nat} {sp : SignedProposal T}
    (hi : c.insert h r sp = .ok c') (hne : h ≠ h' ∨ r ≠ r') : c'.get h' r' = c.get h' r' := by
  unfold ProposalCollector.insert at hi
  dsimp only at hi
  split at hi
  · split at hi
    · cases hi; rfl
    · cases hi
  · cases hi
    unfold ProposalCollector.get
    rw [AMap.get?_insert]
    by_cases hh : h = h'
    · subst hh
      rw [if_pos rfl, Option.bind_some, AMap.get?_insert, if_neg (by rcases hne with h | h <;> [exact absurd rfl h; exact h])]
      cases AMap.get? c h with
      | none => rfl
      | some rc => rfl
    · rw [if_neg hh]

/-- The leader's proposal is the first thing known about the block, or agrees with it. -/
theorem learn_inv {s s' : State T} {sp : SignedProposal T} (hP : P = some sp) (hs : Inv g P s)
    (h : ∀ c, s'.proposals.get g.height g.round = .ok c → c = sp)
    (hb : ∀ c, s'.hashWithBlock.get? g.hash = some c → c = g.block) (hk : Full g s' → Known g s')
    (e1 : s'.height = s.height) (e2 : s'.address = s.address) (e3 : s'.consensusPower = s.consensusPower)
    (e4 : s'.stopped = s.stopped) (e5 : s'.authority = s.authority) (e6 : s'.votes = s.votes) (e7 : s'.round = s.round) :
    Inv g P s' where
  height := e1.trans hs.height
  live := by rw [e2]; exact hs.live
  power := e3.trans hs.power
  running := e4.trans hs.running
  authority := e5.trans hs.authority
  qc := by rw [e6]; exact hs.qc
  byV := by unfold HasQc; rw [e6]; exact hs.byV
  byP := by unfold HasQc; rw [e6]; exact hs.byP
  byC := by unfold HasQc; rw [e6]; exact hs.byC
  prop := fun c hc => by rw [h c hc]; exact hP
  blk := hb
  full := hk
  pool := by rw [e6]; exact hs.pool
  low := by rw [e7]; exact hs.low
  near := by rw [e7]; exact hs.near
  calm := by rw [hP]; intro h; cases h
  poolQ := by unfold voted HasQc; rw [e6]; exact hs.poolQ

section
variable (hg : g.Ok) {e : Env T} (he : GoodEnv g e)
include hg he

/-- The proposal of the round arrives. -/
theorem ok_prop {s : State T} {l : List (Effect T)} {sp : SignedProposal T} (hP : P = some sp) (hp : IsProp g sp) (hs : Inv g P s) :
    OkW (handleSignedProposal sp) e ⟨s, l⟩ (Res g P (fun _ => False) s l (fun eff s' => Keep s s' ∧
      s'.proposals.get g.height g.round = .ok sp ∧
      (s.round = g.round → Known g s' ∧ tP g ∈ trigsOf eff ∧ .spawnCheck g.height g.round g.hash g.block ∈ eff))) := by
  obtain ⟨p1, p2, p3, p4, p5, p6⟩ := hp
  have hold : ∀ old, s.proposals.get g.height g.round = .ok old → old = sp := by
    intro old ho
    have := hs.prop old ho
    rw [hP] at this
    exact (Option.some.inj this).symm
  have hR := hg.rounds
  have hH := hg.heights
  have hlow := hs.low
  have hnear := hs.near
  unfold OkW handleSignedProposal
  rw [wp_bind]
  unfold verifyProposer
  rw [wp_bind]
  refine walk_verifyAddress _ (fun ha => ?_) fun ha => ?_
  · exact absurd (by rw [hs.authority, update_contains, p6]; simpa using hg.members _ hg.leads) ha
  wps
  rw [hs.authority, he.mode, p1, p2, p6, hg.leader]
  refine ⟨fun p hp' => ?_, fun x hx => by cases hx⟩
  cases hp'
  refine ⟨fun hc => absurd rfl hc, fun _ => ?_⟩
  have hf : s.filterMessage g.height g.round = false := by
    have := hs.height
    unfold State.filterMessage FUTURE_ROUND_GAP FUTURE_HEIGHT_GAP U64 at *
    rw [if_neg (by omega), if_neg (by omega), if_neg (by omega)]
  unfold filterSignedProposal checkBlock
  wps
  simp only [p1, p2, p3, p4, p5]
  rw [hf]
  obtain ⟨ps, hi, hgt⟩ := prop_insert hold
  refine ⟨fun h => (by cases h), fun _ => ⟨fun hne => ?_, fun hne => ?_⟩⟩
  · have hlt : s.round ≠ g.round := by have := hs.height; omega
    rw [hi]
    refine ⟨fun ps' hps => ?_, fun x hx => by cases hx⟩
    cases hps
    refine ⟨fun _ => ?_, fun h => absurd trivial h⟩
    refine ⟨[], by simp, learn_inv hP hs (fun c hc => ?_) hs.blk hs.full rfl rfl rfl rfl rfl rfl rfl,
      ?_, ⟨rfl, rfl, rfl⟩, hgt, fun h => absurd h hlt⟩
    · rw [hgt] at hc; exact (Except.ok.inj hc).symm
    · have hx : ∀ x ∈ ([] : List (Effect T)), Silent x := by simp
      refine Post.silent ?_ ?_ ?_ hx
      rotate_left
      · exact fun _ h => h
      · exact id
      exact { Grow.refl s with prop := (fun c hc => by rw [hold c hc]; exact hgt),
                                 height := rfl, address := rfl, chokes := fun _ _ h => h, few := id, round := Nat.le_refl _ }
  · have hr : s.round = g.round := by have := hs.height; omega
    refine ⟨fun h => (by cases h), fun _ => ?_⟩
    have hi' : s.proposals.insert s.height s.round sp = .ok ps := by rw [hs.height, hr]; exact hi
    rw [hi']
    refine ⟨fun ps' hps => ?_, fun x hx => by cases hx⟩
    cases hps
    have hk : Known g { s with hashWithBlock := s.hashWithBlock.insert g.hash g.block, proposals := ps } := by
      unfold Known; simp
    refine ⟨[.trigger (tP g), .spawnCheck g.height g.round g.hash g.block], by simp [tP, hs.height, hr],
      learn_inv hP hs (fun c hc => ?_) (fun c hc => ?_) (fun _ => hk) rfl rfl rfl rfl rfl rfl rfl, ?_, ⟨rfl, rfl, rfl⟩, hgt,
      fun _ => ⟨hk, by simp [trigsOf], by simp⟩⟩
    · rw [hgt] at hc; exact (Except.ok.inj hc).symm
    · rw [hk] at hc; exact (Option.some.inj hc).symm
    · refine ⟨?_, ?_, ?_, by simp, by simp, by simp, by simp, fun h1 h2 => .inl ⟨h1, h2⟩, fun h1 h2 => .inl ⟨h1, h2⟩, fun ty h => .inl h⟩
      · refine { Grow.refl s with prop := (fun c hc => by rw [hold c hc]; exact hgt),
                                  blk := ?_,
                                  height := rfl, address := rfl, chokes := fun _ _ h => h, few := id, round := Nat.le_refl _ }
        intro k c hc
        dsimp only
        rw [AMap.get?_insert]
        split
        · exact ⟨_, rfl⟩
        · exact ⟨c, hc⟩
      · intro t ht
        simp only [trigsOf, List.filterMap_cons, List.filterMap_nil, List.mem_singleton] at ht
        subst ht
        exact ⟨hk, by rw [hP]; simp, .inl rfl⟩
      · intro h r x c hm
        simp only [List.mem_cons, Effect.spawnCheck.injEq, List.not_mem_nil, or_false, reduceCtorEq, false_or] at hm
        obtain ⟨rfl, rfl, rfl, rfl⟩ := hm
        exact ⟨rfl, rfl, rfl, rfl, hk, hr⟩

omit hg he in
theorem Res.after {src : VoteType → Prop} {s s1 : State T} {l l1 : List (Effect T)} {X : List (Effect T) → State T → Prop} {w : World T}
    (h : Same g s s1) (h1 : s.round ≤ s1.round) (hx : ∀ x ∈ l1, Silent x) (hr : Res g P src s1 (l ++ l1) X w) :
    Res g P src s l (fun eff s' => ∃ eff', eff = l1 ++ eff' ∧ X eff' s') w := by
  obtain ⟨eff, h2, h3, h4, h5⟩ := hr
  refine ⟨l1 ++ eff, by rw [h2, List.append_assoc], h3, ?_, eff, rfl, h5⟩
  have hp : Post g P (fun _ => False) s l1 s1 := h.post h1 hx
  exact (hp.trans h4 h3.toInv0).weaken (by simp)

omit hg he in
/-- The beginning of a new round. -/
theorem newRound_head (hE : Encodes T) (he : GoodEnv g e) {s : State T} {lr : Option Nat} {lp : Option Hash} {f : FromWhere}
    (hl : lr.isSome = lp.isSome) (hls : LockStored s lr) (hf : FromStored s f) {R : World T → Prop} {p : Address}
    (hp : s.authority.getProposer e.mode s.height g.round = .ok p)
    (h : ∀ l1 u, (∀ x ∈ l1, Silent x) →
      OkW (if decide (p = s.address) = false then do
            let s ← get
            match s.proposals.get s.height s.round with
            | .ok sp => handleSignedProposal sp
            | .error _ => pure ()
          else do
            modify fun s => { s with isLeader := true }
            let (block, hash, polc) ← proposalParts lr lp
            modify fun s => { s with hashWithBlock :=
              match s.hashWithBlock.get? hash with
              | some _ => s.hashWithBlock
              | none => s.hashWithBlock.insert hash block }
            let s ← get
            let sp ← signProposal { height := s.height, round := s.round, content := block,
                                    blockHash := hash, lock := polc, proposer := s.address }
            broadcast (.signedProposal sp)
            emit (.trigger (stTrigger .proposal hash lr s.round s.height))
            checkBlock hash block) e
        ⟨{ s with round := g.round, isLeader := decide (p = s.address), leaderAddress := p, updateFrom := u }, l1⟩ R) :
    OkW (handleNewRound g.round lr lp f) e ⟨s, []⟩ R := by
  have key : ∀ l' : List (Effect T), (∀ x ∈ l', Silent x) →
      OkW (do
        if lr.isSome ≠ lp.isSome then fail .proposalErr
        else
          setUpdateFrom f
          saveWalWithLockRound .propose lr
          if (← isProposer) = false then
            let s ← get
            match s.proposals.get s.height s.round with
            | .ok sp => handleSignedProposal sp
            | .error _ => pure ()
          else
            modify fun s => { s with isLeader := true }
            let (block, hash, polc) ← proposalParts lr lp
            modify fun s => { s with hashWithBlock :=
              match s.hashWithBlock.get? hash with
              | some _ => s.hashWithBlock
              | none => s.hashWithBlock.insert hash block }
            let s ← get
            let sp ← signProposal { height := s.height, round := s.round, content := block,
                                    blockHash := hash, lock := polc, proposer := s.address }
            broadcast (.signedProposal sp)
            emit (.trigger (stTrigger .proposal hash lr s.round s.height))
            checkBlock hash block) e ⟨{ s with round := g.round, isLeader := false }, l'⟩ R := by
    intro l' hl'
    unfold OkW
    rw [if_neg (fun h => h hl), wp_bind]
    refine wp_fromOk (s := { s with round := g.round, isLeader := false }) hf fun u => ?_
    rw [wp_bind]
    refine wp_saveLROk (s := { s with round := g.round, isLeader := false, updateFrom := u }) hE he hls fun lock => ?_
    rw [wp_bind]
    refine wp_isProposerOk (s := { s with round := g.round, isLeader := false, updateFrom := u }) hp ?_
    exact h (l' ++ [.saveWal (walRec { s with round := g.round, isLeader := false, updateFrom := u } .propose lock) true]) u (by
      intro x hx
      rcases List.mem_append.1 hx with hx | hx
      · exact hl' x hx
      · rw [List.mem_singleton] at hx; subst hx; trivial)
  unfold handleNewRound
  unfold OkW at *
  rw [wp_bind, wp_get]
  by_cases hr : g.round = INIT_ROUND
  · have := key [] (by simp)
    simp only [hr, ne_eq, not_true_eq_false, if_false] at this ⊢
    rw [wp_bind, wp_modify]
    exact this
  · have := key [.reportViewChange s.height s.round (s.viewChangeReason s.round f)] (by simp [Silent])
    simp only [hr, ne_eq, not_false_eq_true, if_true, reportViewChange]
    rw [wp_bind, wp_bind, wp_get, wp_emit, wp_bind, wp_modify]
    exact this

/-- A node that does not lead enters the round. -/
theorem ok_follow (hE : Encodes T) {s : State T} (hs : Inv g P s) (hsp : ∀ sp, P = some sp → IsProp g sp) (ha : s.address ≠ g.leader)
    {lr : Option Nat} {lp : Option Hash} {f : FromWhere} (hl : lr.isSome = lp.isSome) (hls : LockStored s lr) (hf : FromStored s f) :
    OkW (handleNewRound g.round lr lp f) e ⟨s, []⟩ (Res g P (fun _ => False) s [] (fun eff s' =>
      (s'.round = g.round ∧ s'.isLeader = false ∧ s'.leaderAddress = g.leader) ∧
      ∀ sp, s'.proposals.get g.height g.round = .ok sp →
        Known g s' ∧ tP g ∈ trigsOf eff ∧ .spawnCheck g.height g.round g.hash g.block ∈ eff)) := by
  have hp : s.authority.getProposer e.mode s.height g.round = .ok g.leader := by
    rw [hs.authority, he.mode, hs.height]; exact hg.leader
  refine newRound_head hE he hl hls hf hp fun l1 u hx => ?_
  have hd : decide (g.leader = s.address) = false := decide_eq_false (fun h => ha h.symm)
  rw [hd, if_pos rfl]
  have hsame : Same g s { s with round := g.round, isLeader := false, leaderAddress := g.leader, updateFrom := u } :=
    ⟨rfl, rfl, rfl, rfl, rfl, .refl _, rfl, rfl, rfl, fun _ _ h => h, id⟩
  have hs1 : Inv g P { s with round := g.round, isLeader := false, leaderAddress := g.leader, updateFrom := u } :=
    hsame.inv hs (Nat.le_refl _) (Nat.le_add_right _ _)
  have hlow := hs.low
  unfold OkW
  rw [wp_bind, wp_get]
  dsimp only
  split
  · rename_i sp hsp'
    rw [hs.height] at hsp'
    have hP := hs1.prop sp hsp'
    refine OkW.mono (ok_prop hg he hP (hsp sp hP) hs1) fun w hw => ?_
    obtain ⟨eff, h1, h2, h3, eff', rfl, ⟨k1, k2, k3⟩, h5, h6⟩ := Res.after (l := []) hsame hs.low hx hw
    obtain ⟨h7, h8, h9⟩ := h6 rfl
    refine ⟨l1 ++ eff', h1, h2, h3, ⟨k1, k2, k3⟩, fun sp' _ => ⟨h7, ?_, ?_⟩⟩
    · rw [trigsOf_append]; exact List.mem_append.2 (.inr h8)
    · exact List.mem_append.2 (.inr h9)
  · rename_i x hx'
    rw [hs.height] at hx'
    refine ⟨l1, rfl, hs1, hsame.post hs.low hx, ⟨rfl, rfl, rfl⟩, fun sp h => ?_⟩
    have h : s.proposals.get g.height g.round = .ok sp := h
    rw [hx'] at h; cases h

/-- The leader enters the round and proposes. -/
theorem ok_lead (hE : Encodes T) {s : State T} (hs : Inv g none s) (ha : s.address = g.leader)
    {lr : Option Nat} {lp : Option Hash} {f : FromWhere} (hl : lr.isSome = lp.isSome) (hls : LockStored s lr) (hf : FromStored s f)
    (hlr : lr = g.lock) (hlp : ∀ p, lr = some p → lp = some g.hash ∧ s.hashWithBlock.get? g.hash = some g.block) :
    OkW (handleNewRound g.round lr lp f) e ⟨s, []⟩ (fun w => ∃ sp, IsProp g sp ∧ Res g (some sp) (fun _ => False) s [] (fun eff s' =>
      (s'.round = g.round ∧ s'.isLeader = true ∧ s'.leaderAddress = g.leader) ∧
      Known g s' ∧ tP g ∈ trigsOf eff ∧ .spawnCheck g.height g.round g.hash g.block ∈ eff ∧ .broadcast (.signedProposal sp) ∈ eff) w) := by
  have hp : s.authority.getProposer e.mode s.height g.round = .ok g.leader := by
    rw [hs.authority, he.mode, hs.height]; exact hg.leader
  refine newRound_head hE he hl hls hf hp fun l1 u hx => ?_
  have hd : decide (g.leader = s.address) = true := decide_eq_true ha.symm
  rw [hd, if_neg (by simp)]
  have hlow := hs.low
  have fin : ∀ (sp : SignedProposal T) (s' : State T) (eff : List (Effect T)) (l' : List (Effect T)), IsProp g sp → (∀ x ∈ eff, Silent x) →
      (s' = { s with
          round := g.round, isLeader := true, leaderAddress := g.leader, updateFrom := u,
          hashWithBlock := match s.hashWithBlock.get? g.hash with
            | some _ => s.hashWithBlock
            | none => s.hashWithBlock.insert g.hash g.block }) →
      l' = l1 ++ eff ++ [.broadcast (.signedProposal sp), .trigger (tP g), .spawnCheck g.height g.round g.hash g.block] →
      ∃ sp, IsProp g sp ∧ Res g (some sp) (fun _ => False) s [] (fun eff s' =>
      (s'.round = g.round ∧ s'.isLeader = true ∧ s'.leaderAddress = g.leader) ∧
      Known g s' ∧ tP g ∈ trigsOf eff ∧ .spawnCheck g.height g.round g.hash g.block ∈ eff ∧ .broadcast (.signedProposal sp) ∈ eff) ⟨s', l'⟩ := by
    intro sp s' eff l' hip he' h1 h2
    have hk : Known g s' := by
      rw [h1]
      unfold Known
      dsimp only
      split
      · rename_i c hc; rw [hc, hs.blk c hc]
      · simp
    have hs0 : Inv g (some sp) s := hs.mono (fun _ h => by cases h)
    have hinv : Inv g (some sp) s' := by
      have hsame : Same g s { s with round := g.round, isLeader := true, leaderAddress := g.leader, updateFrom := u } :=
        ⟨rfl, rfl, rfl, rfl, rfl, .refl _, rfl, rfl, rfl, fun _ _ h => h, id⟩
      have hs1 := hsame.inv hs0 (Nat.le_refl _) (Nat.le_add_right _ _)
      refine learn_inv rfl hs1 (fun c hc => ?_) (fun c hc => ?_) (fun _ => hk) ?_ ?_ ?_ ?_ ?_ ?_ ?_
      · subst h1
        have := hs.prop c hc; cases this
      · rw [hk] at hc; exact (Option.some.inj hc).symm
      all_goals (subst h1; rfl)
    have hgrow : Grow g s s' := by
      subst h1
      refine { Grow.refl s with blk := ?_, height := rfl, address := rfl, chokes := fun _ _ h => h, few := id, round := hs.low }
      intro k c hc
      dsimp only
      split
      · exact ⟨c, hc⟩
      · rw [AMap.get?_insert]
        split
        · exact ⟨_, rfl⟩
        · exact ⟨c, hc⟩
    have hq : ∀ ty, HasQc g s' ty → HasQc g s ty := by subst h1; exact fun _ h => h
    have hfl : Full g s' → Full g s := by subst h1; exact id
    have hsl : ∀ x ∈ l1 ++ eff, Silent x := by
      intro x hm
      rcases List.mem_append.1 hm with hm | hm
      exacts [hx x hm, he' x hm]
    have htr : trigsOf (l1 ++ eff ++ [.broadcast (.signedProposal sp), .trigger (tP g), .spawnCheck g.height g.round g.hash g.block]) = [tP g] := by
      rw [trigsOf_append, trigsOf_silent hsl]; simp [trigsOf]
    refine ⟨sp, hip, l1 ++ eff ++ [.broadcast (.signedProposal sp), .trigger (tP g), .spawnCheck g.height g.round g.hash g.block], by rw [h2]; rfl, hinv, ?_, by subst h1; exact ⟨rfl, rfl, rfl⟩, hk,
      by rw [htr]; simp, by simp, by simp⟩
    refine ⟨hgrow, ?_, ?_, ?_, ?_, ?_, ?_, fun h1 h2 => .inl ⟨hq _ h1, hfl h2⟩, fun h1 h2 => .inl ⟨hq _ h1, hfl h2⟩, fun ty h => .inl (hq _ h)⟩
    · rw [htr]
      intro t ht
      rw [List.mem_singleton] at ht
      subst ht
      exact ⟨hk, by simp, .inl rfl⟩
    · intro a b c d hm
      rcases List.mem_append.1 hm with hm | hm
      · exact absurd (hsl _ hm) id
      · simp only [List.mem_cons, Effect.spawnCheck.injEq, List.not_mem_nil, or_false, reduceCtorEq, false_or] at hm
        obtain ⟨rfl, rfl, rfl, rfl⟩ := hm
        exact ⟨rfl, rfl, rfl, rfl, hk, by subst h1; rfl⟩
    · intro m hm
      rcases List.mem_append.1 hm with hm | hm
      · exact absurd (hsl _ hm) id
      · simp only [List.mem_cons, Effect.broadcast.injEq, List.not_mem_nil, or_false, reduceCtorEq, false_or] at hm
        exact .inr ⟨sp, hm, rfl⟩
    · intro d m hm
      rcases List.mem_append.1 hm with hm | hm
      · exact absurd (hsl _ hm) id
      · simp at hm
    · intro d m hm
      rcases List.mem_append.1 hm with hm | hm
      · exact absurd (hsl _ hm) id
      · simp at hm
    · intro m hm
      rcases List.mem_append.1 hm with hm | hm
      · exact absurd (hsl _ hm) id
      · simp at hm
  unfold OkW proposalParts
  rw [wp_bind, wp_modify, wp_bind]
  cases lr with
  | none =>
    wps
    have hb := he.block hlr.symm
    have hb' : e.getBlock s.height = some (g.block, g.hash) := by rw [hs.height]; exact hb
    rw [hb']
    refine ⟨fun bh hbh => ?_, fun h => (by cases h)⟩
    cases hbh
    wps [signProposal, broadcast, checkBlock]
    refine ⟨fun b hb => ⟨fun sig hsig => ?_, fun hn => ?_⟩, fun hn => ?_⟩
    · refine fin ⟨sig, ⟨s.height, g.round, g.block, g.hash, none, s.address⟩⟩ _ [.getBlock s.height (some (g.block, g.hash))] _
        ⟨hs.height, rfl, rfl, rfl, hlr, ha⟩ (by simp [Silent]) rfl ?_
      simp [tP, ← hlr, hs.height]
    · obtain ⟨sig, hsig⟩ := GoodEnv.sig he (e.crypto.hash b)
      rw [hsig] at hn; cases hn
    · obtain ⟨b, hb⟩ := enc_prop hE ⟨s.height, g.round, g.block, g.hash, none, s.address⟩
      rw [hb] at hn; cases hn
  | some k =>
    obtain ⟨h1, h2⟩ := hlp k rfl
    obtain ⟨qc, c, h3, h4⟩ := hls
    wps
    rw [h1]
    refine ⟨fun x hx => ?_, fun h => (by cases h)⟩
    cases hx
    rw [h2]
    refine ⟨fun x hx => ?_, fun h => (by cases h)⟩
    cases hx
    rw [h3]
    wps [signProposal, broadcast, checkBlock]
    refine ⟨fun b hb => ⟨fun sig hsig => ?_, fun hn => ?_⟩, fun hn => ?_⟩
    · refine fin ⟨sig, ⟨s.height, g.round, g.block, g.hash, some ⟨k, qc⟩, s.address⟩⟩ _ [] _
        ⟨hs.height, rfl, rfl, rfl, hlr, ha⟩ (by simp [Silent]) rfl ?_
      simp [tP, ← hlr, hs.height]
    · obtain ⟨sig, hsig⟩ := GoodEnv.sig he (e.crypto.hash b)
      rw [hsig] at hn; cases hn
    · obtain ⟨b, hb⟩ := enc_prop hE ⟨s.height, g.round, g.block, g.hash, some ⟨k, qc⟩, s.address⟩
      rw [hb] at hn; cases hn

/-- The order to vote for the block. -/
theorem ok_order (hE : Encodes T) {s : State T} (hP : P ≠ none) (hs : Inv g P s) (hr : s.round = g.round) (hla : s.leaderAddress = g.leader)
    (hlead : s.isLeader = decide (s.address = g.leader)) {lr : Option Nat} (hls : LockStored s lr) {ty : VoteType} :
    OkW (handleVoteEvent g.hash ty lr) e ⟨s, []⟩ (Res g P (fun _ => False) s [] (fun eff s' => Keep s s' ∧
      (s.address ≠ g.leader → ∃ sv : SignedVote, sv.voter = s.address ∧ sv.vote = ⟨g.height, g.round, ty, g.hash⟩ ∧
        .transmit g.leader (.signedVote sv) ∈ eff) ∧
      (s.address = g.leader → voted g s' ty s.address = true))) := by
  unfold OkW handleVoteEvent signVote
  rw [wp_bind, wp_get]
  wps
  refine ⟨fun sig hsig => ?_, fun hn => ?_⟩
  rotate_left
  · obtain ⟨sig, hsig⟩ := GoodEnv.sig he (e.crypto.hash (encVote ⟨s.height, s.round, ty, g.hash⟩))
    rw [hsig] at hn; cases hn
  refine wp_saveLROk hE he hls fun lock => ?_
  have hv : (⟨s.height, s.round, ty, g.hash⟩ : Vote) = ⟨g.height, g.round, ty, g.hash⟩ := by rw [hs.height, hr]
  refine ⟨fun hl => ?_, fun hl => ?_⟩
  · have ha : s.address = g.leader := by rw [hlead] at hl; exact of_decide_eq_true hl
    have hvt : g.live s.address = true := hs.live
    have hi0 := insertVote_inv0 hs.toInv0 (sv := ⟨sig, ⟨s.height, s.round, ty, g.hash⟩, s.address⟩)
      (fun _ _ => ⟨⟨hg.members _ hs.live, fun _ => rfl⟩, fun _ => hP⟩)
    have htk := insertVote_taken hs.toInv0 (sv := ⟨sig, ⟨s.height, s.round, ty, g.hash⟩, s.address⟩) hv hs.live
    have hgrow := insertVote_grow (g := g) (s := s) (sv := ⟨sig, ⟨s.height, s.round, ty, g.hash⟩, s.address⟩)
    unfold voteProcess
    rw [wp_bind, wp_get]
    dsimp only
    rw [if_neg (by rw [hl]; simp)]
    have := ok_tail (P := P) hg he (s := { s with votes := s.votes.insertVote g.hash ⟨sig, ⟨s.height, s.round, ty, g.hash⟩, s.address⟩ s.address })
      (l := [] ++ [.saveWal (walRec s ty.toStep lock) true] ++ [.ownVote ⟨sig, ⟨s.height, s.round, ty, g.hash⟩, s.address⟩]) hi0 hr (ty := ty)
      (by
        intro ty' hne hQ
        rw [insertVote_hasQc]
        refine hs.poolQ ty' ((quorum_congr fun a => ?_).1 hQ)
        unfold voted
        dsimp only
        rw [poolD_insertVote, if_neg (fun hc => hne hc.2.2.symm)])
      (s0 := { s with votes := s.votes.insertVote g.hash ⟨sig, ⟨s.height, s.round, ty, g.hash⟩, s.address⟩ s.address }) rfl
      (k := fun qc => (s.round, s.height)) (fun qc h1 h2 => rfl)
    refine OkW.mono this ?_
    rintro ⟨s', l'⟩ ⟨eff, h1, h2, h3, h4⟩
    have hx : ∀ x ∈ ([.saveWal (walRec s ty.toStep lock) true, .ownVote ⟨sig, ⟨s.height, s.round, ty, g.hash⟩, s.address⟩] : List (Effect T)), Silent x := by
      simp [Silent]
    have hpost : Post g P (fun _ => False) s [.saveWal (walRec s ty.toStep lock) true, .ownVote ⟨sig, ⟨s.height, s.round, ty, g.hash⟩, s.address⟩]
        { s with votes := s.votes.insertVote g.hash ⟨sig, ⟨s.height, s.round, ty, g.hash⟩, s.address⟩ s.address } :=
      Post.silent hgrow (fun ty => (insertVote_hasQc ty).1) id hx
    refine ⟨_ ++ eff, ?_, h2, (hpost.trans h3 h2.toInv0).weaken (by simp), h4, fun h => absurd ha h, fun _ => ?_⟩
    · rw [h1]; simp
    · exact h3.grow.vote _ _ htk
  · have ha : s.address ≠ g.leader := by
      intro h
      rw [hlead, h] at hl
      simp at hl
    have hl : s.isLeader = false := (Bool.not_eq_true _).mp hl
    unfold transmit voteProcess
    wps
    refine ⟨fun _ => ?_, fun h => absurd hl h⟩
    have htr : ∀ d m, .transmit d m ∈ ([.saveWal (walRec s ty.toStep lock) true, .transmit s.leaderAddress (.signedVote ⟨sig, ⟨s.height, s.round, ty, g.hash⟩, s.address⟩)] : List (Effect T)) →
        d = g.leader ∧ ∃ ty sv, m = .signedVote sv ∧ sv.voter = s.address ∧ sv.vote = ⟨g.height, g.round, ty, g.hash⟩ ∧ P ≠ none := by
      intro d m hm
      simp only [List.mem_cons, List.not_mem_nil, or_false, reduceCtorEq, false_or, Effect.transmit.injEq] at hm
      obtain ⟨rfl, rfl⟩ := hm
      exact ⟨hla, ty, _, rfl, rfl, hv, hP⟩
    have hpost : Post g P (fun _ => False) s [.saveWal (walRec s ty.toStep lock) true, .transmit s.leaderAddress (.signedVote ⟨sig, ⟨s.height, s.round, ty, g.hash⟩, s.address⟩)] s :=
      ⟨.refl s, by simp [trigsOf], by simp, by simp, htr, by simp, by simp, fun h1 h2 => .inl ⟨h1, h2⟩, fun h1 h2 => .inl ⟨h1, h2⟩, fun ty h => .inl h⟩
    have hsent : ∀ eff : List (Effect T), (.transmit s.leaderAddress (.signedVote ⟨sig, ⟨s.height, s.round, ty, g.hash⟩, s.address⟩) : Effect T) ∈ eff →
        s.address ≠ g.leader → ∃ sv : SignedVote, sv.voter = s.address ∧ sv.vote = ⟨g.height, g.round, ty, g.hash⟩ ∧
        .transmit g.leader (.signedVote sv) ∈ eff := by
      intro eff hm _
      rw [hla] at hm
      exact ⟨_, rfl, hv, hm⟩
    split
    · rename_i qc hqc
      rw [hs.height, hr] at hqc
      obtain ⟨q1, q2, q3, q4⟩ := hs.qc ty qc hqc
      wps
      refine ⟨fun hf => ?_, fun hf => ?_⟩
      · exact ⟨_, rfl, hs, hpost, .refl s, hsent _ (by simp), fun h => absurd h ha⟩
      · have hF : Full g s := by unfold Full; rw [← q4]; exact (Bool.not_eq_false _).mp hf
        have hpost2 : Post g P (fun _ => False) s [.trigger (tQ g ty)] s := by
          refine ⟨.refl s, ?_, by simp, by simp, by simp, by simp, by simp, fun h1 h2 => .inl ⟨h1, h2⟩, fun h1 h2 => .inl ⟨h1, h2⟩, fun ty h => .inl h⟩
          intro t ht
          simp only [trigsOf, List.filterMap_cons, List.filterMap_nil, List.mem_singleton] at ht
          subst ht
          exact ⟨hs.full hF, hP, .inr ⟨ty, rfl, qc, hqc⟩⟩
        refine ⟨_ ++ [.trigger (tQ g ty)], ?_, hs, (hpost.trans hpost2 hs.toInv0).weaken (by simp), .refl s, hsent _ (by simp), fun h => absurd h ha⟩
        simp [tQ, q3, q4, hs.height, hr]
    · exact ⟨_, rfl, hs, hpost, .refl s, hsent _ (by simp), fun h => absurd h ha⟩

/-- The order to commit: the block is committed. -/
theorem ok_commit (hE : Encodes T) {s : State T} (hs : Inv g P s) (hk : Known g s) (hq : HasQc g s .precommit) :
    OkW (handleCommit g.hash) e ⟨s, []⟩ (fun w => ∃ c res, .commitCall g.height c res ∈ w.log ∧
      c.content = g.block ∧ c.proof.blockHash = g.hash ∧ c.proof.round = g.round ∧
      (w.st = s ∧ (∃ b, w.log = [b, .commitCall g.height c res] ∧ Silent b) ∨ g.height < w.st.height) ∧
      (∀ m, .broadcast m ∉ w.log) ∧ (∀ d m, .transmit d m ∉ w.log)) := by
  obtain ⟨q, hq1, hq2⟩ := hs.byV _ hq
  have hq1' : s.votes.getQcByHash s.height g.hash .precommit = some q := by rw [hs.height]; exact hq1
  refine wp_handleCommit ?_ ?_ ?_ ?_
  · intro hn
    obtain ⟨b, hb⟩ := enc_wal hE (commitRec s q g.block)
    have := hn g.block q hk hq1'
    rw [hb] at this; cases this
  · rintro content qc h1 h2 ⟨b, _, h3⟩
    rw [he.saves] at h3; cases h3
  · intro content qc h1 h2 h3 h4
    rw [hk] at h1; cases h1
    rw [hq1'] at h2; cases h2
    refine ⟨by simp, mkCommit s g.hash g.block q, none, by simp [hs.height], rfl, rfl, hq2.2.1, .inl ⟨rfl, .saveWal (commitRec s q g.block) true, by simp [hs.height], trivial⟩, by simp, by simp⟩
  · intro content qc status h1 h2 h3 h4
    rw [hk] at h1; cases h1
    rw [hq1'] at h2; cases h2
    obtain ⟨h5, l, h6⟩ := he.answers _ _ _ h4
    have hlt : g.height < status.height := by have := hs.height; omega
    refine ⟨fun x hx => ?_, fun h => absurd h (by omega), fun _ _ => ?_, fun _ _ h => ?_, fun _ _ _ => ?_⟩
    · rw [h6] at hx; cases hx
    · exact ⟨mkCommit s g.hash g.block q, some status, by simp [hs.height], rfl, rfl, hq2.2.1, .inr (by simpa [State.moved] using hlt), by simp, by simp⟩
    · obtain ⟨b, _, h⟩ := h
      rw [he.saves] at h; cases h
    · exact ⟨mkCommit s g.hash g.block q, some status, by simp [hs.height], rfl, rfl, hq2.2.1, .inr (by simpa [State.adopted, State.moved] using hlt), by simp, by simp⟩

end

/-- Whether looking up the leader panics does not depend on the height and the round. -/
theorem getProposer_panic {mode : LeaderMode} {a : Authority} {h r : Nat} {p : Address} (hp : a.getProposer mode h r = .ok p)
    (h' r' : Nat) : a.getProposer mode h' r' ≠ .error .panic := by
  unfold Authority.getProposer at *
  cases mode with
  | random rng =>
    dsimp only at *
    unfold getRandomProposerIndex at *
    by_cases hw : a.proposeWeightSum = 0
    · simp only [hw, if_true] at hp; cases hp
    · simp only [hw, if_false]
      cases firstAccepted ((a.proposeWeightSum * (U64MAX / a.proposeWeightSum)) % U64) (rng ((h' + r') % U64)) with
      | none => intro h; cases h
      | some d =>
        intro h
        simp only [bind, Except.bind] at h
        split at h <;> cases h
  | rotation =>
    dsimp only at *
    unfold rotationLeaderIndex at *
    by_cases hw : a.address.length % U32 = 0
    · simp only [hw, if_true] at hp; cases hp
    · simp only [hw, if_false]
      intro h
      simp only [bind, Except.bind] at h
      split at h <;> cases h

/-- Messages that do not concern the round, or only the past. -/
def Harmless (g : GoodRound T) (s : State T) (m : OverlordMsg T) : Prop :=
  m.isRichStatus = false ∧ m ≠ .stop ∧ (m.getHeight? ≠ some g.height ∨ (msgRound m < s.round ∧ ¬ commits m) ∨
    s.round = g.round ∧ Bearable g s m ∧ ∀ sv, m ≠ .signedVote sv)

/-- Chokes of few faulty validators are not enough. -/
theorem faulty_length {l : List Node} {live : Address → Bool} {m : AMap Address SignedChoke} (hn : (m.map Prod.fst).Nodup)
    (hf : ∀ x ∈ m, x.1 ∈ l.map Node.address ∧ live x.1 = false) : m.length ≤ (l.filter fun n => !live n.address).length := by
  have hsub : m.map Prod.fst ⊆ (l.filter fun n => !live n.address).map Node.address := by
    intro a ha
    obtain ⟨x, hx, rfl⟩ := List.mem_map.1 ha
    obtain ⟨h1, h2⟩ := hf x hx
    obtain ⟨n, h3, h4⟩ := List.mem_map.1 h1
    exact List.mem_map.2 ⟨n, List.mem_filter.2 ⟨h3, by simp [h4, h2]⟩, h4⟩
  have := (List.subperm_of_subset hn hsub).length_le
  simpa using this

theorem mem_insert_amap {K V : Type} [DecidableEq K] {m : AMap K V} {k : K} {v : V} {x : K × V} (h : x ∈ AMap.insert m k v) : x = (k, v) ∨ x ∈ m := by
  induction m with
  | nil => simp [AMap.insert] at h; exact .inl h
  | cons y ys ih =>
    obtain ⟨k', v'⟩ := y
    simp only [AMap.insert] at h
    split at h
    · rcases List.mem_cons.1 h with h | h
      · exact .inl h
      · exact .inr (by simp [h])
    · rcases List.mem_cons.1 h with h | h
      · exact .inr (by simp [h])
      · exact (ih h).imp id (by intro h; simp [h])

theorem FaultyChokes.insert {s : State T} (h : FaultyChokes g s) {sc : SignedChoke} (hr : sc.choke.round = g.round) (hf : FaultyIn g sc.address) :
    FaultyChokes g { s with chokes := s.chokes.insert sc.choke.round sc } := by
  intro p hp hle
  rcases mem_insert_amap hp with rfl | hp
  · have hold : ((((s.chokes.chokes.get? sc.choke.round).getD []) : AMap Address SignedChoke).map Prod.fst).Nodup ∧
        ∀ x ∈ (((s.chokes.chokes.get? sc.choke.round).getD []) : AMap Address SignedChoke), FaultyIn g x.1 := by
      cases hm : s.chokes.chokes.get? sc.choke.round with
      | none => simp
      | some m => exact h _ (AMap.mem_of_get? _ hm) hle
    refine ⟨AMap.nodup_insert _ _ _ hold.1, fun x hx => ?_⟩
    rcases mem_insert_amap hx with rfl | hx
    · exact hf
    · exact hold.2 x hx
  · exact h p hp hle

theorem FaultyChokes.below {s : State T} (hg : g.Ok) (h : FaultyChokes g s) (hn : FewByNumber g) (hau : s.authority = Authority.update g.list) {r : Nat}
    (hm : s.chokes.maxRoundAboveThreshold s.authority.len = some r) : r < g.round := by
  rcases Nat.lt_or_ge r g.round with h1 | h1
  · exact h1
  · exfalso
    unfold ChokeCollector.maxRoundAboveThreshold at hm
    obtain ⟨p, hp, rfl⟩ := Option.map_eq_some_iff.1 hm
    have h2 := List.find?_some hp
    have h3 := (mem_sorted _ _).1 (List.mem_of_find?_eq_some hp)
    obtain ⟨h4, h5⟩ := h p h3 h1
    have h6 := faulty_length h4 h5
    have h7 : s.authority.len = g.list.length := by rw [hau]; exact update_len _
    unfold FewByNumber at hn
    simp at h2
    omega

/-- Nothing about the round changed. -/
def Idle (g : GoodRound T) (s : State T) (w : World T) : Prop := w.log = [] ∧ Same g s w.st ∧ Keep s w.st

section
variable (hg : g.Ok) {e : Env T} (he : GoodEnv g e)
include hg he

theorem ok_idle {s : State T} (hs : Inv g P s) {m : OverlordMsg T} (hm : Harmless g s m) :
    OkW (handleMsg m) e ⟨s, []⟩ (Idle g s) := by
  have hsame : Same g s s := ⟨rfl, rfl, rfl, rfl, rfl, .refl _, rfl, rfl, rfl, fun _ _ h => h, id⟩
  have h0 : Idle g s ⟨s, []⟩ := ⟨rfl, hsame, .refl s⟩
  have hH := hs.height
  unfold OkW handleMsg
  rw [wp_bind, wp_get]
  dsimp only
  rw [if_neg (by rw [hs.power]; simp)]
  obtain ⟨m1, m2, m3⟩ := hm
  have lg : ∀ (x : M T Unit), OkW x e ⟨s, []⟩ (Idle g s) →
      wp (logged x) e ⟨s, []⟩ (fun _ w => Idle g s w)
        (fun x w => x ≠ .panic ∧ Idle g s w) := by
    intro x hx
    rw [wp_logged]
    exact wp_mono hx (fun _ _ h => h) (fun y w h => ⟨fun hp => absurd hp h.1, fun _ => h.2⟩)
  cases m with
  | richStatus => simp [OverlordMsg.isRichStatus] at m1
  | stop => exact absurd rfl m2
  | signedProposal sp =>
    simp only [OverlordMsg.getHeight?, ne_eq, Option.some.injEq, msgRound] at m3
    refine lg _ ?_
    unfold OkW handleSignedProposal verifyProposer
    rw [wp_bind, wp_bind]
    refine walk_verifyAddress _ (fun _ => ⟨by simp, h0⟩) fun _ => ?_
    wps
    refine ⟨fun p hp => ⟨fun _ => ⟨by simp, h0⟩, fun hpr => ?_⟩, fun x hx => ⟨?_, h0⟩⟩
    · replace m3 : sp.proposal.height ≠ g.height ∨ sp.proposal.round < s.round ∨ s.round = g.round ∧ sp.proposal.round ≠ g.round := by
        rcases m3 with m3 | m3 | ⟨m3, m4 | m4, -⟩
        · exact .inl m3
        · exact .inr (.inl m3.1)
        · exact .inr (.inr ⟨m3, m4⟩)
        · by_cases k1 : sp.proposal.height = g.height
          · by_cases k2 : sp.proposal.round = g.round
            · exfalso
              rw [hs.authority, he.mode, k1, k2, hg.leader] at hp
              cases hp
              exact m4 (Decidable.not_not.1 hpr)
            · exact .inr (.inr ⟨m3, k2⟩)
          · exact .inl k1
      unfold filterSignedProposal
      wps
      refine ⟨fun _ => ⟨fun _ => h0, fun h => absurd trivial h⟩, fun hf => ⟨fun hc => ⟨fun ps hps => ⟨fun _ => ?_, fun h => absurd trivial h⟩, fun x hx => ⟨?_, h0⟩⟩, fun hc => ?_⟩⟩
      · refine ⟨rfl, ⟨rfl, rfl, rfl, rfl, rfl, .refl _, prop_insert_other hps ?_, rfl, rfl, fun _ _ h => h, id⟩, rfl, rfl, rfl⟩
        rcases m3 with m3 | m3 | m3
        · exact .inl m3
        · right
          have := hs.low
          intro h
          omega
        · exact .inr m3.2
      · intro hpan
        subst hpan
        unfold ProposalCollector.insert at hx
        dsimp only at hx
        split at hx
        · split at hx <;> cases hx
        · cases hx
      · exfalso
        have : ¬ (sp.proposal.height < s.height ∨ sp.proposal.height = s.height ∧ sp.proposal.round < s.round) := by
          intro h
          simp [State.filterMessage, h] at hf
        omega
    · rintro rfl
      exact getProposer_panic hg.leader _ _ (by rw [hs.authority, he.mode] at hx; exact hx)
  | signedVote sv =>
    simp only [OverlordMsg.getHeight?, ne_eq, Option.some.injEq, msgRound] at m3
    refine lg _ ?_
    unfold OkW handleSignedVote
    rw [wp_bind, wp_get]
    dsimp only
    rw [wp_ite]
    refine ⟨fun _ => h0, fun hf => ?_⟩
    replace m3 : sv.vote.height ≠ g.height ∨ sv.vote.round < s.round := by
      rcases m3 with m3 | m3 | m3
      · exact .inl m3
      · exact .inr m3.1
      · exact absurd rfl (m3.2.2 sv)
    have hgt : sv.vote.height > s.height := by
      have : ¬ (sv.vote.height < s.height ∨ sv.vote.height = s.height ∧ sv.vote.round < s.round) := by
        intro h
        simp [State.filterMessage, h] at hf
      omega
    rw [wp_bind]
    refine walk_verifyAddress _ (fun _ => ⟨by simp, h0⟩) fun _ => ?_
    split
    · exact h0
    · rw [wp_bind, wp_modify, if_pos hgt]
      exact ⟨rfl, ⟨rfl, rfl, rfl, rfl, rfl, .insertVote _ (fun h => by omega), rfl, rfl, rfl, fun _ _ h => h, id⟩, rfl, rfl, rfl⟩
  | aggregatedVote qc =>
    simp only [OverlordMsg.getHeight?, ne_eq, Option.some.injEq, msgRound, commits] at m3
    refine lg _ ?_
    unfold OkW handleAggregatedVote
    wps
    refine ⟨fun _ => h0, fun h1 => ⟨fun h2 => ⟨fun _ => ?_, fun _ => h0⟩, fun h2 => ⟨fun _ => h0, fun h3 => ⟨fun _ => h0, fun h4 => ?_⟩⟩⟩⟩
    · exact ⟨rfl, ⟨rfl, rfl, rfl, rfl, rfl, .setQc _ (by omega), rfl, rfl, rfl, fun _ _ h => h, id⟩, rfl, rfl, rfl⟩
    · exfalso
      rcases m3 with m3 | ⟨m3, m4⟩ | ⟨-, m3, -⟩
      rotate_left 2
      · exact m3
      · omega
      · cases hty : qc.voteType with
        | prevote => exact h3 ⟨hty, m3⟩
        | precommit => exact h4 ⟨hty, Decidable.by_contra fun hb => m4 ⟨hty, hb⟩, m3⟩
  | signedChoke sc =>
    simp only [OverlordMsg.getHeight?, ne_eq, Option.some.injEq, msgRound] at m3
    refine lg _ ?_
    unfold OkW handleSignedChoke
    rw [wp_bind, wp_get]
    dsimp only
    rw [wp_ite]
    refine ⟨fun _ => h0, fun h1 => ?_⟩
    rcases m3 with m3 | m3 | ⟨m3, ⟨k1, k2, k3, k4⟩, -⟩
    · omega
    · rw [if_pos m3.1]
      exact h0
    · rw [if_neg (by omega), if_neg (by omega), wp_bind, wp_modify]
      have hin := FaultyChokes.insert k4 k1 k2
      have hi : Idle g s ⟨{ s with chokes := s.chokes.insert sc.choke.round sc }, []⟩ :=
        ⟨rfl, ⟨rfl, rfl, rfl, rfl, rfl, .refl _, rfl, rfl, rfl, fun _ _ h => h, fun _ => hin⟩, rfl, rfl, rfl⟩
      unfold checkChokeAboveThreshold
      rw [wp_bind, wp_get]
      dsimp only
      split
      · exact hi
      · rename_i r hr
        have := FaultyChokes.below hg hin k3 hs.authority hr
        rw [if_pos (by omega)]
        exact hi

end

/-! ### The arms -/

theorem OkW.logged {m : M T Unit} {e : Env T} {w : World T} {R : World T → Prop} (h : OkW m e w R) : OkW (logged m) e w R := by
  unfold OkW at *
  rw [wp_logged]
  exact wp_mono h (fun _ _ h => h) (fun y w h => ⟨fun hp => absurd hp h.1, fun _ => h.2⟩)

theorem OkW.run {m : M T Unit} {e : Env T} {w : World T} {R : World T → Prop} (h : OkW m e w R) :
    ∃ w', (do M.logged m; pure true : M T Bool) e w = (.ok true, w') ∧ R w' := by
  have h' : wp (do M.logged m; pure true : M T Bool) e w (fun b w' => b = true ∧ R w') (fun _ _ => False) := by
    rw [wp_bind, wp_logged]
    refine wp_mono h (fun _ _ h => ?_) (fun y w h => ⟨fun hp => absurd hp h.1, fun _ => ?_⟩)
    · rw [wp_pure]; exact ⟨rfl, h⟩
    · rw [wp_pure]; exact ⟨rfl, h.2⟩
  rcases wp_exists h' with ⟨b, h1, h2, h3⟩ | ⟨x, h1, h2⟩
  · subst h2
    exact ⟨_, Prod.ext h1 rfl, h3⟩
  · exact h2.elim

theorem run_event {ev : SMREvent} {e : Env T} {s : State T} {R : World T → Prop} (hp : s.consensusPower = true) (hs : s.stopped = false)
    (h : OkW (handleEvent ev) e ⟨s, []⟩ R) : ∃ w, runArm (.event ev) e ⟨s, []⟩ = (.ok true, w) ∧ R w := by
  obtain ⟨w, h1, h2⟩ := h.run
  refine ⟨w, ?_, h2⟩
  rw [← h1]
  unfold runArm
  simp [bind, M.bind, M.get, hp, hs]

theorem run_resp {r : VerifyResp} {e : Env T} {s : State T} {R : World T → Prop} (hp : s.consensusPower = true)
    (h : OkW (handleResp r) e ⟨s, []⟩ R) : ∃ w, runArm (.resp r) e ⟨s, []⟩ = (.ok true, w) ∧ R w := by
  obtain ⟨w, h1, h2⟩ := h.run
  refine ⟨w, ?_, h2⟩
  rw [← h1]
  unfold runArm
  simp [bind, M.bind, M.get, hp]

theorem run_verified {m : OverlordMsg T} {e : Env T} {s : State T} {R : World T → Prop}
    (h : OkW (handleMsg m) e ⟨s, []⟩ R) : ∃ w, runArm (.verified m) e ⟨s, []⟩ = (.ok true, w) ∧ R w := h.run

theorem msg_ok {m : OverlordMsg T} {e : Env T} {s : State T} {R : World T → Prop} (hp : s.consensusPower = true)
    {x : M T Unit} (hx : (match m with
      | .signedProposal sp => handleSignedProposal sp
      | .aggregatedVote av => handleAggregatedVote av
      | .signedVote sv => handleSignedVote sv
      | _ => M.fail .panic) = x) (h : OkW x e ⟨s, []⟩ R) : OkW (handleMsg m) e ⟨s, []⟩ R := by
  unfold handleMsg
  unfold OkW
  rw [wp_bind, wp_get]
  dsimp only
  rw [if_neg (by rw [hp]; simp)]
  cases m with
  | signedProposal sp => subst hx; exact OkW.logged h
  | aggregatedVote av => subst hx; exact OkW.logged h
  | signedVote sv => subst hx; exact OkW.logged h
  | _ => subst hx; unfold OkW at h; rw [wp_fail] at h; exact absurd rfl h.1

end Overlord.Good
