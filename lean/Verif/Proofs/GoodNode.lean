import Verif.Proofs.GoodHandlers2

/-! A node in a good round. -/

set_option linter.unusedSimpArgs false
set_option linter.unusedVariables false
set_option linter.unusedSectionVars false

namespace Overlord.Good
open M Spec

variable {T : Type}

section defs
variable (g : GoodRound T)

/-- The block has been committed. -/
def Comm (L : List (Effect T)) : Prop :=
  ∃ c res, .commitCall g.height c res ∈ L ∧ c.content = g.block ∧ c.proof.blockHash = g.hash ∧ c.proof.round = g.round

/-- The node has voted: to the leader, or in its own pool. -/
def Vtd (a : Address) (L : List (Effect T)) (s : State T) (ty : VoteType) : Prop :=
  (a ≠ g.leader ∧ ∃ sv : SignedVote, sv.voter = a ∧ sv.vote = ⟨g.height, g.round, ty, g.hash⟩ ∧ .transmit g.leader (.signedVote sv) ∈ L) ∨
  (a = g.leader ∧ voted g s ty a = true)

/-- The events of the round. -/
def EvOk (P : Option (SignedProposal T)) (s : State T) : SMREvent → Prop
  | .prevoteVote _ _ x lr => x = g.hash ∧ LockStored s lr ∧ P ≠ none
  | .precommitVote _ _ x lr => x = g.hash ∧ LockStored s lr ∧ P ≠ none
  | .commit x => x = g.hash ∧ HasQc g s .precommit ∧ Known g s
  | _ => False

/-- The order to enter the round. -/
def NriOk (a : Address) (s : State T) : SMREvent → Prop
  | .newRoundInfo _ r lr lp f _ _ => r = g.round ∧ lr.isSome = lp.isSome ∧ LockStored s lr ∧ FromStored s f ∧
      (a = g.leader → lr = g.lock ∧ ∀ p, lr = some p → lp = some g.hash ∧ Known g s)
  | _ => False

def Order (ty : VoteType) : SMREvent → Prop
  | .prevoteVote _ _ _ _ => ty = .prevote
  | .precommitVote _ _ _ _ => ty = .precommit
  | _ => False

def IsCommit : SMREvent → Prop
  | .commit _ => True
  | _ => False

/-- What the State has done for an event. -/
def Done (a : Address) (L : List (Effect T)) (s : State T) (ev : SMREvent) : Prop :=
  (∀ ty, Order ty ev → Vtd g a L s ty) ∧ (IsCommit ev → Comm g L)

/-- Messages that reach the State. -/
def MsgOk (P : Option (SignedProposal T)) (q : VoteType → Prop) (s : State T) (m : OverlordMsg T) : Prop :=
  (∃ sp, m = .signedProposal sp ∧ P = some sp) ∨
  (∃ ty qc, m = .aggregatedVote qc ∧ GoodQc g ty qc ∧ q ty ∧ P ≠ none) ∨
  (∃ sv, m = .signedVote sv ∧ s.round = g.round ∧
    (g.live sv.voter = true → (∃ ty, sv.vote = ⟨g.height, g.round, ty, g.hash⟩) ∧ P ≠ none)) ∨
  Harmless g s m

theorem MsgOk.bearable {P : Option (SignedProposal T)} {q : VoteType → Prop} {s : State T} {m : OverlordMsg T} (h1 : m.isRichStatus = false) (h2 : m ≠ .stop)
    (hr : s.round = g.round) (hb : Bearable g s m) : MsgOk g P q s m := by
  cases m with
  | signedVote sv => exact .inr (.inr (.inl ⟨sv, rfl, hr, fun hl => by rw [show g.live sv.voter = false from hb] at hl; cases hl⟩))
  | _ => exact .inr (.inr (.inr ⟨h1, h2, .inr (.inr ⟨hr, hb, by simp⟩)⟩))

/-- Votes of live nodes, the proposal of the leader. -/
def OfLive (m : OverlordMsg T) : Prop :=
  (∀ sv, m = .signedVote sv → g.live sv.voter = true) ∧ ∀ sp, m = .signedProposal sp → sp.proposal.proposer = g.leader

/-- The State has taken up a message of the round. -/
def Taken (s : State T) : OverlordMsg T → Prop
  | .signedProposal sp => s.proposals.get g.height g.round = .ok sp
  | .aggregatedVote qc => HasQc g s qc.voteType
  | .signedVote sv => voted g s sv.vote.voteType sv.voter = true ∨ HasQc g s sv.vote.voteType
  | _ => True

/-- What the node has sent about the height. -/
structure Sends (P : Option (SignedProposal T)) (a : Address) (L : List (Effect T)) : Prop where
  bc : ∀ m, .broadcast m ∈ L → m.getHeight? = some g.height →
    (∃ ty qc, m = .aggregatedVote qc ∧ GoodQc g ty qc ∧ P ≠ none) ∨ ∃ sp, m = .signedProposal sp ∧ P = some sp
  tr : ∀ d m, .transmit d m ∈ L → m.getHeight? = some g.height →
    d = g.leader ∧ ∃ ty sv, m = .signedVote sv ∧ sv.voter = a ∧ sv.vote = ⟨g.height, g.round, ty, g.hash⟩ ∧ P ≠ none

/-- The node has the proposal. -/
def Sup (P : Option (SignedProposal T)) (a : Address) (s : State T) : Prop :=
  (∃ sp, s.proposals.get g.height g.round = .ok sp) ∧ s.round = g.round ∨ a = g.leader ∧ P ≠ none

/-- What holds of a live node at the height of the round. `D`: messages that arrived after they had been sent. -/
structure Core (P : Option (SignedProposal T)) (q : VoteType → Prop) (a : Address) (D : OverlordMsg T → Prop)
    (L : List (Effect T)) (n : NodeSys T) : Prop where
  up : n.down = false
  addr : n.st.address = a
  st : Inv g P n.st
  smrH : n.sys.smr.height = g.height
  smrR : n.sys.smr.round = g.round
  step : n.sys.smr.step ≠ .brake
  pre : n.sys.smr.step = .propose → Suitable g n.sys.smr ∧ LockStored n.st n.sys.smr.lockRound
  act : n.sys.smr.step ≠ .propose → P ≠ none
  trigs : ∀ t ∈ n.sys.trigQ, TrigOk g P n.st t
  chk : ∀ x ∈ n.checking, (x = (g.height, g.round, g.hash, g.block) ∧ Known g n.st ∧ n.st.round = g.round) ∨ x.1 < g.height
  resp : ∀ x ∈ n.respQ, (x = ⟨g.height, g.round, g.hash, true⟩ ∧ Known g n.st ∧ n.st.round = g.round) ∨ x.height < g.height
  ver : ∀ m ∈ n.verifiedQ, MsgOk g P q n.st m
  vfy : ∀ x ∈ n.verifying, x.1.isRichStatus = false ∧ x.1 ≠ .stop
  has : ∀ ty, HasQc g n.st ty → q ty
  i2 : n.sys.smr.step ≠ .propose → (∃ ev ∈ n.stQ, Order .prevote ev) ∨ Vtd g a L n.st .prevote ∨ HasQc g n.st .prevote ∨ HasQc g n.st .precommit
  i3 : n.sys.smr.step = .precommit → (∃ ev ∈ n.stQ, Order .precommit ev) ∨ Vtd g a L n.st .precommit ∨ HasQc g n.st .precommit
  i4 : HasQc g n.st .prevote → Full g n.st → tQ g .prevote ∈ n.sys.trigQ ∨ n.sys.smr.step = .precommit ∨ n.sys.smr.step = .commit ∨
    HasQc g n.st .precommit
  i5 : HasQc g n.st .precommit → Full g n.st → tQ g .precommit ∈ n.sys.trigQ ∨ (∃ ev ∈ n.stQ, IsCommit ev) ∨ Comm g L
  i6 : n.sys.smr.step = .commit → HasQc g n.st .precommit ∧ ((∃ ev ∈ n.stQ, IsCommit ev) ∨ Comm g L)
  own : ∀ ty qc, .broadcast (.aggregatedVote qc) ∈ L → GoodQc g ty qc → HasQc g n.st ty
  sends : Sends g P a L
  got : ∀ m, D m → (∃ x ∈ n.verifying, x.1 = m) ∨ m ∈ n.verifiedQ ∨ Taken g n.st m

/-- The block of the round is being checked. -/
def Checks (n : NodeSys T) : Prop :=
  (g.height, g.round, g.hash, g.block) ∈ n.checking ∨ (⟨g.height, g.round, g.hash, true⟩ : VerifyResp) ∈ n.respQ

/-- A node with the proposal votes and checks. -/
def Prog (P : Option (SignedProposal T)) (a : Address) (n : NodeSys T) : Prop :=
  Sup g P a n.st → Known g n.st ∧ (tP g ∈ n.sys.trigQ ∨ n.sys.smr.step ≠ .propose) ∧ (Full g n.st ∨ Checks g n)

/-- The State has entered the round. -/
structure Entered (P : Option (SignedProposal T)) (a : Address) (n : NodeSys T) : Prop where
  round : n.st.round = g.round
  leaderAddress : n.st.leaderAddress = g.leader
  isLeader : n.st.isLeader = decide (a = g.leader)
  prop : a = g.leader → P ≠ none
  evs : ∀ ev ∈ n.stQ, EvOk g P n.st ev

/-- The State is going to enter the round. -/
def Early (P : Option (SignedProposal T)) (a : Address) (n : NodeSys T) : Prop :=
  ∃ nri post, n.stQ = nri :: post ∧ NriOk g a n.st nri ∧ (a = g.leader → P = none) ∧ ∀ ev ∈ post, EvOk g P n.st ev

structure NodeIn (P : Option (SignedProposal T)) (q : VoteType → Prop) (a : Address) (D : OverlordMsg T → Prop)
    (L : List (Effect T)) (n : NodeSys T) : Prop where
  core : Core g P q a D L n
  prog : Prog g P a n
  shape : Entered g P a n ∨ Early g P a n

/-- The node has left the height, having committed the block. -/
structure NodeOut (P : Option (SignedProposal T)) (q : VoteType → Prop) (a : Address) (L : List (Effect T)) (n : NodeSys T) : Prop where
  height : g.height < n.st.height
  comm : Comm g L
  has : q .precommit
  prop : P ≠ none
  sends : Sends g P a L

end defs

variable {g : GoodRound T} {P P' : Option (SignedProposal T)} {q q' : VoteType → Prop} {a : Address} {D : OverlordMsg T → Prop}
  {L L' : List (Effect T)}

theorem Comm.app (h : Comm g L) (L' : List (Effect T)) : Comm g (L ++ L') := by
  obtain ⟨c, r, h1, h2⟩ := h
  exact ⟨c, r, List.mem_append.2 (.inl h1), h2⟩

theorem Vtd.mono {s s' : State T} {ty : VoteType} (h : Vtd g a L s ty) (hg : Grow g s s') (L' : List (Effect T)) : Vtd g a (L ++ L') s' ty := by
  rcases h with ⟨h1, sv, h2, h3, h4⟩ | ⟨h1, h2⟩
  · exact .inl ⟨h1, sv, h2, h3, List.mem_append.2 (.inl h4)⟩
  · exact .inr ⟨h1, hg.vote _ _ h2⟩

theorem Taken.mono {s s' : State T} {m : OverlordMsg T} (h : Taken g s m) (hg : Grow g s s') : Taken g s' m := by
  cases m with
  | signedProposal sp => exact hg.prop _ h
  | aggregatedVote qc => exact hg.hasQc h
  | signedVote sv => exact h.imp (hg.vote _ _) hg.hasQc
  | _ => trivial

theorem EvOk.mono {s s' : State T} {ev : SMREvent} (h : EvOk g P s ev) (hg : Grow g s s') (hs : Inv0 g P s) (hs' : Inv0 g P s') : EvOk g P s' ev := by
  cases ev with
  | prevoteVote => exact ⟨h.1, hg.lockStored hs h.2.1, h.2.2⟩
  | precommitVote => exact ⟨h.1, hg.lockStored hs h.2.1, h.2.2⟩
  | commit => exact ⟨h.1, hg.hasQc h.2.1, hg.known hs' h.2.2⟩
  | _ => exact h.elim

theorem NriOk.mono {s s' : State T} {ev : SMREvent} (h : NriOk g a s ev) (hg : Grow g s s') (hs : Inv0 g P s) (hs' : Inv0 g P s') : NriOk g a s' ev := by
  cases ev with
  | newRoundInfo =>
    obtain ⟨h1, h2, h3, h4, h5⟩ := h
    exact ⟨h1, h2, hg.lockStored hs h3, hg.fromStored hs h4, fun ha => ⟨(h5 ha).1, fun p hp => ⟨((h5 ha).2 p hp).1, hg.known hs' ((h5 ha).2 p hp).2⟩⟩⟩
  | _ => exact h.elim

theorem MsgOk.mono {s s' : State T} {m : OverlordMsg T} (h : MsgOk g P q s m) (hg : Grow g s s') (hs' : Inv0 g P s')
    (hq : ∀ ty, q ty → q' ty) : MsgOk g P q' s' m := by
  have hr := hg.round
  rcases h with h | ⟨ty, qc, h1, h2, h3, h4⟩ | ⟨sv, h1, h2, h3⟩ | ⟨h1, h2, h3⟩
  · exact .inl h
  · exact .inr (.inl ⟨ty, qc, h1, h2, hq _ h3, h4⟩)
  · refine .inr (.inr (.inl ⟨sv, h1, ?_, h3⟩))
    have := hs'.low
    omega
  · refine .inr (.inr (.inr ⟨h1, h2, h3.imp id (Or.imp (fun h => ⟨by omega, h.2⟩) fun h => ⟨?_, ?_, h.2.2⟩)⟩))
    · have := hs'.low
      have := h.1
      omega
    · cases m with
      | signedChoke sc => exact ⟨h.2.1.1, h.2.1.2.1, h.2.1.2.2.1, hg.few h.2.1.2.2.2⟩
      | _ => exact h.2.1

theorem Sends.app (h : Sends g P a L) (h' : Sends g P a L') : Sends g P a (L ++ L') := by
  refine ⟨fun m hm hh => ?_, fun d m hm hh => ?_⟩
  · rcases List.mem_append.1 hm with hm | hm
    exacts [h.bc m hm hh, h'.bc m hm hh]
  · rcases List.mem_append.1 hm with hm | hm
    exacts [h.tr d m hm hh, h'.tr d m hm hh]

theorem Post.sends {src : VoteType → Prop} {s s' : State T} {eff : List (Effect T)} (h : Post g P src s eff s') (hi : Inv0 g P s') (ha : s.address = a) :
    Sends g P a eff := by
  refine ⟨fun m hm hh => ?_, fun d m hm hh => ?_⟩
  · rcases h.bc m hm with ⟨ty, qc, h1, h2, h3⟩ | h1
    · exact .inl ⟨ty, qc, h1, h2, fun hP => (hi.calm hP).1 _ h3⟩
    · exact .inr h1
  · obtain ⟨h1, ty, sv, h2, h3, h4, h5⟩ := h.tr d m hm
    exact ⟨h1, ty, sv, h2, h3.trans ha, h4, h5⟩

/-- Other nodes may propose and broadcast certificates. -/
theorem Core.mono {n : NodeSys T} (h : Core g P q a D L n) (hP : ∀ sp, P = some sp → P' = some sp) (hq : ∀ ty, q ty → q' ty) :
    Core g P' q' a D L n := by
  have hne : P ≠ none → P' ≠ none := by
    intro hp h'
    cases h1 : P with
    | none => exact hp h1
    | some sp => have := hP sp h1; rw [h'] at this; cases this
  refine { h with st := h.st.mono hP, act := fun hh => hne (h.act hh), trigs := fun t ht => ?_, ver := fun m hm => ?_, has := fun ty ht => hq ty (h.has ty ht), sends := ?_ }
  · obtain ⟨h1, h2, h3⟩ := h.trigs t ht
    exact ⟨h1, hne h2, h3⟩
  · rcases h.ver m hm with ⟨sp, h1, h2⟩ | ⟨ty, qc, h1, h2, h3, h4⟩ | ⟨sv, h1, h2, h3⟩ | h1
    · exact .inl ⟨sp, h1, hP _ h2⟩
    · exact .inr (.inl ⟨ty, qc, h1, h2, hq _ h3, hne h4⟩)
    · exact .inr (.inr (.inl ⟨sv, h1, h2, fun hl => ⟨(h3 hl).1, hne (h3 hl).2⟩⟩))
    · exact .inr (.inr (.inr h1))
  · refine ⟨fun m hm hh => ?_, fun d m hm hh => ?_⟩
    · rcases h.sends.bc m hm hh with ⟨ty, qc, h1, h2, h3⟩ | ⟨sp, h1, h2⟩
      · exact .inl ⟨ty, qc, h1, h2, hne h3⟩
      · exact .inr ⟨sp, h1, hP _ h2⟩
    · obtain ⟨h1, ty, sv, h2, h3, h4, h5⟩ := h.sends.tr d m hm hh
      exact ⟨h1, ty, sv, h2, h3, h4, hne h5⟩

theorem EvOk.monoP {s : State T} {ev : SMREvent} (h : EvOk g P s ev) (hP : P ≠ none → P' ≠ none) : EvOk g P' s ev := by
  cases ev with
  | prevoteVote => exact ⟨h.1, h.2.1, hP h.2.2⟩
  | precommitVote => exact ⟨h.1, h.2.1, hP h.2.2⟩
  | commit => exact h
  | _ => exact h.elim

theorem NodeIn.mono {n : NodeSys T} (h : NodeIn g P q a D L n) (hP : ∀ sp, P = some sp → P' = some sp) (hq : ∀ ty, q ty → q' ty)
    (ha : a = g.leader → P' = P) : NodeIn g P' q' a D L n := by
  have hne : P ≠ none → P' ≠ none := by
    intro hp h'
    cases h1 : P with
    | none => exact hp h1
    | some sp => have := hP sp h1; rw [h'] at this; cases this
  refine ⟨h.core.mono hP hq, fun hs => h.prog ?_, ?_⟩
  · exact hs.imp id fun h1 => ⟨h1.1, by rw [← ha h1.1]; exact h1.2⟩
  · rcases h.shape with h1 | ⟨nri, post, h1, h2, h3, h4⟩
    · exact .inl { h1 with prop := fun h2 => hne (h1.prop h2), evs := fun ev he => (h1.evs ev he).monoP hne }
    · exact .inr ⟨nri, post, h1, h2, fun h5 => by rw [ha h5]; exact h3 h5, fun ev he => (h4 ev he).monoP hne⟩

theorem NodeOut.mono {n : NodeSys T} (h : NodeOut g P q a L n) (hP : ∀ sp, P = some sp → P' = some sp) (hq : ∀ ty, q ty → q' ty) :
    NodeOut g P' q' a L n := by
  have hne : P ≠ none → P' ≠ none := by
    intro hp h'
    cases h1 : P with
    | none => exact hp h1
    | some sp => have := hP sp h1; rw [h'] at this; cases this
  refine { h with has := hq _ h.has, prop := hne h.prop, sends := ?_ }
  refine ⟨fun m hm hh => ?_, fun d m hm hh => ?_⟩
  · rcases h.sends.bc m hm hh with ⟨ty, qc, h1, h2, h3⟩ | ⟨sp, h1, h2⟩
    · exact .inl ⟨ty, qc, h1, h2, hne h3⟩
    · exact .inr ⟨sp, h1, hP _ h2⟩
  · obtain ⟨h1, ty, sv, h2, h3, h4, h5⟩ := h.sends.tr d m hm hh
    exact ⟨h1, ty, sv, h2, h3, h4, hne h5⟩

/-- The certificates the node itself broadcasts. -/
def newQ (g : GoodRound T) (q : VoteType → Prop) (eff : List (Effect T)) (ty : VoteType) : Prop :=
  q ty ∨ ∃ qc, .broadcast (.aggregatedVote qc) ∈ eff ∧ GoodQc g ty qc

/-- The State has handled an input. -/
theorem Core.took {n n1 : NodeSys T} {w : World T} {src : VoteType → Prop} (h : Core g P q a D L n)
    (e1 : n1.sys = n.sys) (e2 : n1.verifying = n.verifying) (e3 : n1.checking = n.checking)
    (hi : Inv g P w.st) (hp : Post g P src n.st w.log w.st) (hsrc : ∀ ty, src ty → q ty)
    (hst : ∀ ev ∈ n.stQ, ev ∈ n1.stQ ∨ Done g a (L ++ w.log) w.st ev)
    (hvq : ∀ m ∈ n.verifiedQ, D m → m ∈ n1.verifiedQ ∨ Taken g w.st m) (hvq' : ∀ m ∈ n1.verifiedQ, m ∈ n.verifiedQ)
    (hrq' : ∀ x ∈ n1.respQ, x ∈ n.respQ) :
    Core g P (newQ g q w.log) a D (L ++ w.log) (n1.took none (.ok true, w)) := by
  have hG := hp.grow
  have hr : n.st.round = g.round → w.st.round = g.round := by
    intro h1; have := hG.round; have := hi.low; omega
  have hlog : ∀ (f : Effect T → Option (OverlordMsg T)), True := fun _ => trivial
  have hver : ((n1.took none (.ok true, w)).verifiedQ = n1.verifiedQ) := by
    show n1.verifiedQ ++ _ = _
    have : (cutTo none w.log).filterMap (fun x => match x with | .toVerified m => some m | _ => none) = [] := by
      rw [List.filterMap_eq_nil_iff]
      intro x hx
      cases x with
      | toVerified m => exact absurd hx (hp.fwd m)
      | _ => rfl
    exact (congrArg _ this).trans (List.append_nil _)
  have hvfy : ((n1.took none (.ok true, w)).verifying = n.verifying) := by
    show n1.verifying ++ _ = _
    have : (cutTo none w.log).filterMap (fun x => match x with | .spawnVerify m a => some (m, a) | _ => none) = [] := by
      rw [List.filterMap_eq_nil_iff]
      intro x hx
      cases x with
      | spawnVerify m a => exact absurd hx (hp.ver m a)
      | _ => rfl
    exact (congrArg _ this).trans ((List.append_nil _).trans e2)
  have htr : (n1.took none (.ok true, w)).sys.trigQ = n.sys.trigQ ++ trigsOf w.log := by
    show n1.sys.trigQ ++ _ = _
    rw [e1]; rfl
  have hsmr : (n1.took none (.ok true, w)).sys.smr = n.sys.smr := by
    show n1.sys.smr = _
    rw [e1]
  have hq0 : ∀ ty, q ty → newQ g q w.log ty := fun ty h => .inl h
  refine ⟨rfl, hG.address.trans h.addr, hi, ?_, ?_, ?_, ?_, ?_, ?_, ?_, ?_, ?_, ?_, ?_, ?_, ?_, ?_, ?_, ?_, ?_, ?_, ?_⟩
  · rw [hsmr]; exact h.smrH
  · rw [hsmr]; exact h.smrR
  · rw [hsmr]; exact h.step
  · rw [hsmr]; exact fun h1 => ⟨(h.pre h1).1, hG.lockStored h.st.toInv0 (h.pre h1).2⟩
  · rw [hsmr]; exact h.act
  · rw [htr]
    intro t ht
    rcases List.mem_append.1 ht with ht | ht
    · exact hG.trigOk hi.toInv0 (h.trigs t ht)
    · exact hp.trig t ht
  · intro x hx
    have hx : x ∈ n1.checking ++ (cutTo none w.log).filterMap (fun x => match x with | .spawnCheck h r hash b => some (h, r, hash, b) | _ => none) := hx
    rw [e3] at hx
    rcases List.mem_append.1 hx with hx | hx
    · exact (h.chk x hx).imp (fun ⟨h1, h2, h3⟩ => ⟨h1, hG.known hi.toInv0 h2, hr h3⟩) id
    · obtain ⟨y, hy, hyx⟩ := List.mem_filterMap.1 hx
      cases y with
      | spawnCheck k r x' c =>
        obtain ⟨h1, h2, h3, h4, h5, h6⟩ := hp.chk _ _ _ _ hy
        cases hyx
        subst h1 h2 h3 h4
        exact .inl ⟨rfl, h5, h6⟩
      | _ => cases hyx
  · intro x hx
    exact (h.resp x (hrq' x hx)).imp (fun ⟨h1, h2, h3⟩ => ⟨h1, hG.known hi.toInv0 h2, hr h3⟩) id
  · intro m hm
    rw [hver] at hm
    exact (h.ver m (hvq' m hm)).mono hG hi.toInv0 hq0
  · rw [hvfy]; exact h.vfy
  · intro ty ht
    rcases hp.new ty ht with h1 | h1 | h1
    · exact .inl (h.has ty h1)
    · exact .inl (hsrc ty h1)
    · exact .inr h1
  · rw [hsmr]
    intro h1
    rcases h.i2 h1 with ⟨ev, h2, h3⟩ | h2 | h2 | h2
    · rcases hst ev h2 with h4 | h4
      · exact .inl ⟨ev, h4, h3⟩
      · exact .inr (.inl (h4.1 _ h3))
    · exact .inr (.inl (h2.mono hG _))
    · exact .inr (.inr (.inl (hG.hasQc h2)))
    · exact .inr (.inr (.inr (hG.hasQc h2)))
  · rw [hsmr]
    intro h1
    rcases h.i3 h1 with ⟨ev, h2, h3⟩ | h2 | h2
    · rcases hst ev h2 with h4 | h4
      · exact .inl ⟨ev, h4, h3⟩
      · exact .inr (.inl (h4.1 _ h3))
    · exact .inr (.inl (h2.mono hG _))
    · exact .inr (.inr (hG.hasQc h2))
  · rw [hsmr, htr]
    intro h1 h2
    rcases hp.progV h1 h2 with ⟨h3, h4⟩ | h3 | h3
    · rcases h.i4 h3 h4 with h5 | h5 | h5 | h5
      · exact .inl (List.mem_append.2 (.inl h5))
      · exact .inr (.inl h5)
      · exact .inr (.inr (.inl h5))
      · exact .inr (.inr (.inr (hG.hasQc h5)))
    · exact .inl (List.mem_append.2 (.inr h3))
    · exact .inr (.inr (.inr h3))
  · rw [htr]
    intro h1 h2
    rcases hp.progC h1 h2 with ⟨h3, h4⟩ | h3
    · rcases h.i5 h3 h4 with h5 | ⟨ev, h5, h6⟩ | h5
      · exact .inl (List.mem_append.2 (.inl h5))
      · rcases hst ev h5 with h7 | h7
        · exact .inr (.inl ⟨ev, h7, h6⟩)
        · exact .inr (.inr (h7.2 h6))
      · exact .inr (.inr (h5.app _))
    · exact .inl (List.mem_append.2 (.inr h3))
  · rw [hsmr]
    intro h1
    obtain ⟨h2, h3⟩ := h.i6 h1
    refine ⟨hG.hasQc h2, ?_⟩
    rcases h3 with ⟨ev, h5, h6⟩ | h3
    · rcases hst ev h5 with h7 | h7
      · exact .inl ⟨ev, h7, h6⟩
      · exact .inr (h7.2 h6)
    · exact .inr (h3.app _)
  · intro ty qc hm hgq
    rcases List.mem_append.1 hm with hm | hm
    · exact hG.hasQc (h.own ty qc hm hgq)
    · rcases hp.bc _ hm with ⟨ty', qc', h1, h2, h3⟩ | ⟨sp, h1, _⟩
      · cases h1
        have : ty = ty' := by rw [← hgq.2.2.1, h2.2.2.1]
        subst this
        exact h3
      · cases h1
  · exact h.sends.app (hp.sends hi.toInv0 h.addr)
  · intro m hm
    rw [hvfy, hver]
    rcases h.got m hm with h1 | h1 | h1
    · exact .inl h1
    · exact .inr (hvq m h1 hm)
    · exact .inr (.inr (h1.mono hG))

end Overlord.Good
