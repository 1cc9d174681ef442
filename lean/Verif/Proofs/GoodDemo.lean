import Verif.Proofs.GoodEnd
import Verif.Proofs.NetDemo

/-! A concrete good round for the example beside C45. -/

set_option linter.unusedSectionVars false
set_option linter.unusedVariables false

namespace Overlord.GoodDemo
open Spec NetDemo

/-- As `envN`; the block of every height is `[5, 5]`, with hash `[5]`. -/
def envG (a : UInt8) : Env C := { envN a (some none) with getBlock := fun _ => some ([5, 5], [5]) }

def toG (a : UInt8) : D → NAct C
  | .raw m => .arm (.raw m) (envG a) none
  | .event cut => .arm .event (envG a) cut
  | .resp => .arm .resp (envG a) none
  | .verified => .arm .verified (envG a) none
  | .start w => .start params (envG a) none
  | d => d.to a

def schedG (l : List (UInt8 × List D)) : List (Address × NAct C) := l.flatMap fun y => y.2.map fun d => ([y.1], toG y.1 d)

def status10 : Status := { height := 10, interval := none, timerConfig := none, authorityList := nodes }

/-- Validators 1, 2 and 3 start and get the status of height 10. -/
def before : List (UInt8 × List D) :=
  [1, 2, 3].map fun a => (a, [.start none, .raw (.richStatus status10), .verified, .smr, .set])


def g : GoodRound C :=
  { height := 10, round := 0, list := nodes, mode := .rotation, live := fun a => [[1], [2], [3]].contains a, leader := [1],
    block := [5, 5], hash := [5], lock := none }

def proposal : OverlordMsg C := .signedProposal (prop 1 10 0 [5, 5] [5] none)
def voteOf (a : UInt8) (ty : VoteType) : OverlordMsg C := .signedVote (StDemo.vote a 10 0 ty [5])
def qcOf (ty : VoteType) : OverlordMsg C := .aggregatedVote (cert [1, 2, 3] 10 0 ty [5])

/-- What the faulty validator 4 sends: a vote for another block, a choke, a proposal of its own for the round and one for round 3. -/
def mess : List D :=
  dl (.signedVote (StDemo.vote 4 10 0 .prevote [6])) ++ dl (.signedChoke (StDemo.choke 4 10 0 (.precommitQC mockInitQc))) ++
  dl (.signedProposal (prop 4 10 0 [6, 6] [6] none)) ++ dl (.signedProposal (prop 4 10 3 [6, 6] [6] none))

/-- The leader proposes, checks and prevotes; the others get the proposal, check and prevote (validator 4 is faulty: `mess`); the leader makes the certificates; everyone commits. -/
def round : List (UInt8 × List D) :=
  [(1, [.event none, .cdone, .resp, .smr, .event none])] ++
  ([2, 3].map fun a => (a, [.event none] ++ dl proposal ++ [.smr, .event none, .cdone, .resp])) ++
  [(2, mess), (1, mess ++ dl (voteOf 2 .prevote) ++ mess ++ dl (voteOf 3 .prevote) ++ [.smr, .event none])] ++
  ([2, 3].map fun a => (a, dl (qcOf .prevote) ++ [.smr, .event none])) ++
  [(1, dl (voteOf 2 .precommit) ++ dl (voteOf 3 .precommit) ++ [.smr, .event none])] ++
  ([2, 3].map fun a => (a, dl (qcOf .precommit) ++ [.smr, .event none]))


/-- The faulty validator 4 sends validator 2 a certificate of no block, signed by itself alone. Validator 2 goes to round 1 and
proposes there. -/
def spoilt : List (UInt8 × List D) :=
  [(1, [.event none, .cdone, .resp, .smr, .event none])] ++
  ([2, 3].map fun a => (a, [.event none] ++ dl proposal ++ [.smr, .event none, .cdone, .resp])) ++
  [(2, dl (.aggregatedVote (cert [4] 10 0 .precommit [])) ++ [.smr, .event none])] ++
  [(1, dl (voteOf 2 .prevote) ++ dl (voteOf 3 .prevote) ++ [.smr, .event none])] ++
  ([2, 3].map fun a => (a, dl (qcOf .prevote) ++ [.smr, .event none])) ++
  [(2, [.cdone, .resp]), (1, dl (voteOf 3 .precommit))] ++
  ([1, 3].map fun a => (a, dl (.signedProposal (prop 2 10 1 [5, 5] [5] none))))

/-! ### Checkers -/

section
variable {T : Type} [ContentCodec T] [DecidableEq T]

def lockStoredB (s : State T) : Option Nat → Bool
  | none => true
  | some x =>
    match s.votes.getQcById s.height x .prevote with
    | .ok qc => (s.hashWithBlock.get? qc.blockHash).isSome
    | .error _ => false

theorem lockStoredB_sound {s : State T} {l : Option Nat} (h : lockStoredB s l = true) : LockStored s l := by
  cases l with
  | none => trivial
  | some x =>
    simp only [lockStoredB] at h
    split at h
    · rename_i qc hq
      obtain ⟨c, hc⟩ := Option.isSome_iff_exists.1 h
      exact ⟨qc, c, hq, hc⟩
    · cases h

def fromStoredB (s : State T) : FromWhere → Bool
  | .prevoteQC x => match s.votes.getQcById s.height x .prevote with | .ok _ => true | .error _ => false
  | .precommitQC x => decide (x = U64MAX) || match s.votes.getQcById s.height x .precommit with | .ok _ => true | .error _ => false
  | .chokeQC x => (s.chokes.getQc x).isSome

theorem fromStoredB_sound {s : State T} {f : FromWhere} (h : fromStoredB s f = true) : FromStored s f := by
  cases f with
  | prevoteQC x =>
    simp only [fromStoredB] at h
    split at h
    · exact ⟨_, by assumption⟩
    · cases h
  | precommitQC x =>
    simp only [fromStoredB, Bool.or_eq_true, decide_eq_true_eq] at h
    rcases h with h | h
    · exact .inl h
    · split at h
      · exact .inr ⟨_, by assumption⟩
      · cases h
  | chokeQC x => exact Option.isSome_iff_exists.1 h

def isOkB {α ε : Type} : Except ε α → Bool | .ok _ => true | .error _ => false

/-- `Ready`, computed, when the order to enter the round is in the queue. -/
def readyB (g : GoodRound T) (a : Address) (n : NodeSys T) : Bool :=
  !n.down && decide (n.st.address = a) && n.st.consensusPower && !n.st.stopped && decide (n.st.height = g.height) &&
  decide (n.st.authority = Authority.update g.list) &&
  decide (n.sys.smr.height = g.height ∧ n.sys.smr.round = g.round ∧ n.sys.smr.step = .propose) &&
  decide (n.sys.smr.lock = none) && lockStoredB n.st n.sys.smr.lockRound &&
  (n.sys.trigQ.isEmpty && n.verifiedQ.isEmpty && n.verifying.isEmpty && n.checking.isEmpty && n.respQ.isEmpty) &&
  (!isOkB (n.st.votes.getQcById g.height g.round .prevote) && !isOkB (n.st.votes.getQcById g.height g.round .precommit)) &&
  ((n.st.votes.getQcByHash g.height g.hash .prevote).isNone && (n.st.votes.getQcByHash g.height g.hash .precommit).isNone) &&
  ((n.st.votes.pool g.height g.round .prevote).isNone && (n.st.votes.pool g.height g.round .precommit).isNone) &&
  !isOkB (n.st.proposals.get g.height g.round) && (n.st.hashWithBlock.get? g.hash).isNone && !n.st.tryGetFullTxs g.hash &&
  match n.stQ with
  | [.newRoundInfo h r lr lp f _ _] =>
    decide (h = g.height ∧ r = g.round ∧ n.st.round ≤ g.round ∧ g.round ≤ n.st.round + FUTURE_ROUND_GAP ∧ lr = none ∧ lp = none ∧
      g.lock = none) && fromStoredB n.st f
  | _ => false

theorem readyB_sound {g : GoodRound T} {a : Address} {n : NodeSys T} (h : readyB g a n = true) : Ready g a n := by
  simp only [readyB, Bool.and_eq_true, Bool.not_eq_true', decide_eq_true_eq, List.isEmpty_iff, Option.isNone_iff_eq_none] at h
  obtain ⟨⟨⟨⟨⟨⟨⟨⟨⟨⟨⟨⟨⟨⟨⟨⟨h1, h2⟩, h3⟩, h4⟩, h5⟩, h6⟩, h7⟩, h8⟩, h9⟩, ⟨⟨⟨h10, h11⟩, h12⟩, h13⟩, h14⟩, h15, h16⟩, h17, h18⟩, h19, h20⟩, h21⟩, h22⟩,
    h23⟩, h24⟩ := h
  refine ⟨h1, h2, h3, h4, h5, h6, h7, .inl h8, lockStoredB_sound h9, ⟨h10, h11, h12, h13, h14⟩, ?_, ?_, h18, ?_, ?_, ?_, ?_, .inr ?_⟩
  · intro ty qc hq
    cases ty
    · rw [hq] at h15; cases h15
    · rw [hq] at h16; cases h16
  · intro qc hq; rw [h17] at hq; cases hq
  · intro ty; cases ty <;> assumption
  · intro sp hs; rw [hs] at h21; cases h21
  · intro c hc; rw [h22] at hc; cases hc
  · intro hc; rw [h23] at hc; cases hc
  · split at h24
    · rename_i h r lr lp f ni nc hq
      simp only [Bool.and_eq_true, decide_eq_true_eq] at h24
      obtain ⟨⟨rfl, rfl, k1, k2, rfl, rfl, k3⟩, k4⟩ := h24
      exact ⟨none, none, f, ni, nc, hq, k1, k2, rfl, trivial, fromStoredB_sound k4, fun _ => ⟨k3.symm, by simp⟩⟩
    · cases h24

def sentB (N0 N : NetSys T) (c a : Address) (m : OverlordMsg T) : Bool :=
  decide (.broadcast m ∈ doneSince N0 N c) || decide (.transmit a m ∈ doneSince N0 N c)

theorem sentB_iff {N0 N : NetSys T} {c a : Address} {m : OverlordMsg T} : sentB N0 N c a m = true ↔ SentTo N0 N c a m := by
  simp [sentB, SentTo]

/-- `Arrived`, computed. -/
def arrivedB (N0 : NetSys T) (c a : Address) (m : OverlordMsg T) : NetSys T → List (Address × NAct T) → Bool
  | _, [] => false
  | N, (b, x) :: as =>
    (match x with
      | .arm (.raw m') _ none => decide (b = a ∧ m' = m) && sentB N0 N c a m
      | _ => false) ||
    match N.act b x with
    | some N' => arrivedB N0 c a m N' as
    | none => false

theorem arrivedB_sound {N0 : NetSys T} {c a : Address} {m : OverlordMsg T} : ∀ (as : List (Address × NAct T)) (pre : List (Address × NAct T))
    (N : NetSys T), N0.run pre = some N → arrivedB N0 c a m N as = true → Arrived N0 (pre ++ as) c a m := by
  intro as
  induction as with
  | nil => intro pre N _ h; cases h
  | cons y as ih =>
    obtain ⟨b, x⟩ := y
    intro pre N hp h
    simp only [arrivedB, Bool.or_eq_true] at h
    rcases h with h | h
    · split at h
      · simp only [Bool.and_eq_true, decide_eq_true_eq] at h
        obtain ⟨⟨rfl, rfl⟩, h2⟩ := h
        exact ⟨pre, _, as, N, rfl, hp, sentB_iff.1 h2⟩
      · cases h
    · split at h
      · rename_i N' hN
        have := ih (pre ++ [(b, x)]) N' (by rw [Good.run_append hp]; simp [NetSys.run, hN]) h
        rwa [List.append_assoc] at this
      · cases h

def settledB (n : NodeSys T) : Bool :=
  n.sys.trigQ.isEmpty && n.stQ.isEmpty && n.verifiedQ.isEmpty && n.verifying.isEmpty && n.checking.isEmpty && n.respQ.isEmpty

/-- `Delivered`, computed; `l`: the live nodes. -/
def deliveredB (g : GoodRound T) (l : List Address) (N0 N : NetSys T) (as : List (Address × NAct T)) : Bool :=
  (l.all fun c => (doneSince N0 N c).all fun x =>
    match x with
    | .broadcast m => !decide (m.getHeight? = some g.height) || l.all fun a => decide (c = a) || arrivedB N0 c a m N0 as
    | .transmit a m => !decide (m.getHeight? = some g.height) || !g.live a || decide (c = a) || arrivedB N0 c a m N0 as
    | _ => true) &&
  l.all fun a => !decide ((N.nodes a).st.height = g.height) || settledB (N.nodes a)

theorem deliveredB_sound {g : GoodRound T} {l : List Address} (hl : ∀ a, g.live a = true → a ∈ l) {N0 N : NetSys T}
    {as : List (Address × NAct T)} (h : deliveredB g l N0 N as = true) : Delivered g N0 N as := by
  simp only [deliveredB, Bool.and_eq_true, List.all_eq_true] at h
  obtain ⟨h1, h2⟩ := h
  constructor
  · intro c a m hc ha hca hs hm
    refine arrivedB_sound as [] N0 rfl ?_
    rcases hs with hs | hs
    · have := h1 c (hl c hc) _ hs
      simp only [hm, decide_true, Bool.not_true, Bool.false_or, List.all_eq_true] at this
      simpa [hca] using this a (hl a ha)
    · have := h1 c (hl c hc) _ hs
      simpa [hm, ha, hca] using this
  · intro a ha hh
    have := h2 a (hl a ha)
    simp only [hh, decide_true, Bool.not_true, Bool.false_or, settledB, Bool.and_eq_true, List.isEmpty_iff] at this
    obtain ⟨⟨⟨⟨⟨k1, k2⟩, k3⟩, k4⟩, k5⟩, k6⟩ := this
    exact ⟨k1, k2, k3, k4, k5, k6⟩

def commitsB : OverlordMsg T → Bool
  | .aggregatedVote qc => decide (qc.voteType = .precommit ∧ qc.blockHash ≠ [])
  | _ => false

theorem commitsB_iff {m : OverlordMsg T} : commitsB m = true ↔ commits m := by
  cases m <;> simp [commitsB, commits]

/-- `Bearable`, computed. -/
def bearableB (g : GoodRound T) (s : State T) : OverlordMsg T → Bool
  | .signedVote sv => !g.live sv.voter
  | .signedProposal sp => decide (sp.proposal.round ≠ g.round ∨ sp.proposal.proposer ≠ g.leader)
  | .signedChoke sc => decide (sc.choke.round = g.round ∧ (sc.address ∈ g.list.map Node.address ∧ g.live sc.address = false) ∧
      (g.list.filter fun n => !g.live n.address).length * 3 ≤ g.list.length * 2 ∧
      ∀ p ∈ s.chokes.chokes, g.round ≤ p.1 → (p.2.map Prod.fst).Nodup ∧ ∀ x ∈ p.2, x.1 ∈ g.list.map Node.address ∧ g.live x.1 = false)
  | _ => false

theorem bearableB_sound {g : GoodRound T} {s : State T} {m : OverlordMsg T} (h : bearableB g s m = true) : Bearable g s m := by
  cases m with
  | signedVote sv => simpa [bearableB, Bearable] using h
  | signedProposal sp => simp only [bearableB, decide_eq_true_eq] at h; exact h
  | signedChoke sc => simp only [bearableB, decide_eq_true_eq] at h; exact h
  | _ => cases h

/-- `GoodStep`, computed, without `GoodEnv`; `l`: the live nodes. -/
def goodStepB (g : GoodRound T) (l : List Address) (N0 N : NetSys T) (a : Address) : NAct T → Bool
  | .arm (.raw m) _ cut => decide (cut = none) && !m.isRichStatus && decide (m ≠ .stop)
  | .arm _ _ cut => decide (cut = none)
  | .verifyDone c i =>
    match (N.nodes a).verifying[i]? with
    | some (m, au) => !decide ((N.nodes a).st.height = g.height) || !decide (m.getHeight? = some g.height) ||
        let s := l.any fun c => g.live c && sentB N0 N c a m
        (!s || verifyTask c m au) &&
        (!verifyTask c m au || s || (decide (msgRound m < (N.nodes a).st.round) && !commitsB m) ||
          decide ((N.nodes a).st.round = g.round) && bearableB g (N.nodes a).st m)
    | none => true
  | .checkDone _ ok => ok
  | .smr => true
  | .set => true
  | .expire _ => true
  | .fire _ => false
  | .crash => false
  | .start _ _ _ => false

def envOk (g : GoodRound T) : NAct T → Prop
  | .arm _ e _ => GoodEnv g e
  | _ => True

theorem goodStepB_sound {g : GoodRound T} {l : List Address} (hl : ∀ a, g.live a = true → a ∈ l) {N0 N : NetSys T} {a : Address}
    {x : NAct T} (he : envOk g x) (h : goodStepB g l N0 N a x = true) : GoodStep g N0 N a x := by
  cases x with
  | arm b e cut =>
    cases b with
    | raw m =>
      simp only [goodStepB, Bool.and_eq_true, decide_eq_true_eq, Bool.not_eq_true'] at h
      exact ⟨he, h.1.1, h.1.2, h.2⟩
    | event => exact ⟨he, of_decide_eq_true h⟩
    | verified => exact ⟨he, of_decide_eq_true h⟩
    | resp => exact ⟨he, of_decide_eq_true h⟩
  | verifyDone c i =>
    intro m au hv hh hm
    simp only [goodStepB, hv, hh, hm, decide_true, Bool.not_true, Bool.false_or, Bool.and_eq_true] at h
    obtain ⟨h1, h2⟩ := h
    have key : (l.any fun c => g.live c && sentB N0 N c a m) = true ↔ ∃ c, g.live c = true ∧ SentTo N0 N c a m := by
      simp only [List.any_eq_true, Bool.and_eq_true, sentB_iff]
      exact ⟨fun ⟨c, _, h⟩ => ⟨c, h⟩, fun ⟨c, h⟩ => ⟨c, hl c h.1, h⟩⟩
    constructor
    · intro hs
      rw [key.2 hs] at h1
      simpa using h1
    · intro hs
      simp only [hs, Bool.not_true, Bool.false_or, Bool.or_eq_true, Bool.and_eq_true, decide_eq_true_eq, Bool.not_eq_true'] at h2
      rcases h2 with (h2 | ⟨h2, h3⟩) | h2
      · exact .inl (key.1 h2)
      · refine .inr (.inl ⟨h2, fun hc => ?_⟩)
        rw [commitsB_iff.2 hc] at h3; cases h3
      · exact .inr (.inr ⟨h2.1, bearableB_sound h2.2⟩)
  | checkDone i ok => exact h
  | smr => trivial
  | set => trivial
  | expire i => trivial
  | fire i => cases h
  | crash => cases h
  | start p e c => cases h

/-- `OpenStep`, computed, without `GoodEnv`. -/
def openStepB (g : GoodRound T) (l : List Address) (N0 N : NetSys T) (a : Address) : NAct T → Bool
  | .verifyDone c i =>
    match (N.nodes a).verifying[i]? with
    | some (m, au) => !decide ((N.nodes a).st.height = g.height) || !decide (m.getHeight? = some g.height) ||
        !(l.any fun c => g.live c && sentB N0 N c a m) || verifyTask c m au
    | none => true
  | x => goodStepB g l N0 N a x

theorem openStepB_sound {g : GoodRound T} {l : List Address} (hl : ∀ a, g.live a = true → a ∈ l) {N0 N : NetSys T} {a : Address}
    {x : NAct T} (he : envOk g x) (h : openStepB g l N0 N a x = true) : OpenStep g N0 N a x := by
  cases x with
  | verifyDone c i =>
    intro m au hv hh hm ⟨d, hd1, hd2⟩
    simp only [openStepB, hv, hh, hm, decide_true, Bool.not_true, Bool.false_or, Bool.or_eq_true, Bool.not_eq_true', List.any_eq_false,
      Bool.and_eq_true, not_and] at h
    exact h.resolve_left fun h' => h' d (hl d hd1) hd1 (sentB_iff.2 hd2)
  | arm b e cut => exact goodStepB_sound hl he h
  | checkDone i ok => exact h
  | smr => trivial
  | set => trivial
  | expire i => trivial
  | fire i => cases h
  | crash => cases h
  | start p e c => cases h

end

/-! ### The example -/

theorem encodes : Encodes C := fun _ => rfl

theorem g_ok : g.Ok where
  distinct := by simp [Distinct, g, nodes]
  sized := by simp [Sized, g, nodes]
  small := by decide +kernel
  leader := by decide +kernel
  leads := by decide +kernel
  members := by
    intro a ha
    simp only [g, List.contains_eq_mem, List.mem_cons, List.not_mem_nil, or_false, decide_eq_true_eq] at ha
    rcases ha with rfl | rfl | rfl <;> decide +kernel
  quorum := by decide +kernel
  hash := by decide +kernel
  rounds := by decide +kernel
  heights := by decide +kernel

def L : List Address := [[1], [2], [3]]

theorem live_L : ∀ a, g.live a = true → a ∈ L := by
  intro a ha
  simpa [g, L] using ha

theorem envG_good (a : UInt8) : GoodEnv g (envG a) where
  mode := rfl
  saves := fun _ => rfl
  signs := fun _ => rfl
  aggregates := fun _ _ => rfl
  block := fun _ => rfl
  answers := fun k c st h => envN_answers a (some none) k c st h

theorem mem_schedG {l : List (UInt8 × List D)} {y : Address × NAct C} (h : y ∈ schedG l) : ∃ a d, y = ([a], toG a d) := by
  simp only [schedG, List.mem_flatMap, List.mem_map] at h
  obtain ⟨z, _, d, _, rfl⟩ := h
  exact ⟨_, _, rfl⟩

theorem envOk_G (a : UInt8) (d : D) : envOk g (toG a d) := by
  cases d <;> first | exact envG_good a | trivial

/-- All that the example needs, computed. -/
def demoB : Bool :=
  match NetSys.new.run (schedG before) with
  | some N0 =>
    L.all (fun a => readyB g a (N0.nodes a)) &&
    alongNetB (fun N a x => !g.live a || goodStepB g L N0 N a x) N0 (schedG round) &&
    match N0.run (schedG round) with
    | some N => deliveredB g L N0 N (schedG round)
    | none => false
  | none => false

theorem demo : ∃ N0 N, NetSys.new.run (schedG before) = some N0 ∧ (∀ a, g.live a = true → Ready g a (N0.nodes a)) ∧
    AlongNet (fun N a x => g.live a = true → GoodStep g N0 N a x) N0 (schedG round) ∧ N0.run (schedG round) = some N ∧
    Delivered g N0 N (schedG round) := by
  have hd : demoB = true := by decide +kernel
  unfold demoB at hd
  split at hd
  · rename_i N0 h0
    simp only [Bool.and_eq_true, List.all_eq_true] at hd
    obtain ⟨⟨h1, h2⟩, h3⟩ := hd
    split at h3
    · rename_i N hN
      refine ⟨N0, N, h0, fun a ha => readyB_sound (h1 a (live_L a ha)), ?_, hN, deliveredB_sound live_L h3⟩
      refine alongNetB_sound _ _ (fun N y hy hb ha => ?_) h2
      obtain ⟨a, d, rfl⟩ := mem_schedG hy
      simp only [ha, Bool.not_true, Bool.false_or] at hb
      exact goodStepB_sound live_L (envOk_G a d) hb
    · cases h3
  · cases hd

/-- The spoilt round, computed. -/
def spoiltB : Bool :=
  match NetSys.new.run (schedG before) with
  | some N0 =>
    L.all (fun a => readyB g a (N0.nodes a)) &&
    alongNetB (fun N a x => !g.live a || openStepB g L N0 N a x) N0 (schedG spoilt) &&
    match N0.run (schedG spoilt) with
    | some N => deliveredB g L N0 N (schedG spoilt) && L.all fun a => (commitsAt (doneSince N0 N a)).isEmpty
    | none => false
  | none => false

theorem spoilt_demo : ∃ N0 N, NetSys.new.run (schedG before) = some N0 ∧ (∀ a, g.live a = true → Ready g a (N0.nodes a)) ∧
    AlongNet (fun N a x => g.live a = true → OpenStep g N0 N a x) N0 (schedG spoilt) ∧ N0.run (schedG spoilt) = some N ∧
    Delivered g N0 N (schedG spoilt) ∧ ∀ a, g.live a = true → commitsAt (doneSince N0 N a) = [] := by
  have hd : spoiltB = true := by decide +kernel
  unfold spoiltB at hd
  split at hd
  · rename_i N0 h0
    simp only [Bool.and_eq_true, List.all_eq_true] at hd
    obtain ⟨⟨h1, h2⟩, h3⟩ := hd
    split at h3
    · rename_i N hN
      simp only [Bool.and_eq_true, List.all_eq_true, List.isEmpty_iff] at h3
      refine ⟨N0, N, h0, fun a ha => readyB_sound (h1 a (live_L a ha)), ?_, hN, deliveredB_sound live_L h3.1, fun a ha => h3.2 a (live_L a ha)⟩
      refine alongNetB_sound _ _ (fun N y hy hb ha => ?_) h2
      obtain ⟨a, d, rfl⟩ := mem_schedG hy
      simp only [ha, Bool.not_true, Bool.false_or] at hb
      exact openStepB_sound live_L (envOk_G a d) hb
    · cases h3
  · cases hd

end Overlord.GoodDemo
