import Verif.Model.Node
import Verif.Spec.State
import Verif.Spec.Smr

/-!
# Specification vocabulary for whole nodes (C21, C30, C31, C33)

Only observations of a schedule: what was released, saved and committed, what is pending, what was given to
the node at its starts.
-/

namespace Overlord.Spec

variable {T : Type}

/-- The votes released, oldest first. -/
def votesOf (log : List (Effect T)) : List SignedVote := log.filterMap releasedVote

/-- The records saved successfully, oldest first. -/
def savedOf (log : List (Effect T)) : List (WalInfo T) :=
  log.filterMap fun
    | .saveWal w true => some w
    | _ => none

/-- What the storage holds. -/
def lastSaved (log : List (Effect T)) : Option (WalInfo T) := (savedOf log).getLast?

/-- The position of a vote. -/
def votePos (v : SignedVote) : Pos := ⟨v.vote.height, v.vote.round, v.vote.voteType.toStep.toNat⟩

/-- The position of a record. -/
def recPos (w : WalInfo T) : Pos := ⟨w.height, w.round, w.step.toNat⟩

/-- The height of an event that orders the State to enter a round or to vote. -/
def orderHeight : SMREvent → Option Nat
  | .newRoundInfo h .. => some h
  | .prevoteVote h .. => some h
  | .precommitVote h .. => some h
  | _ => none

/-- The commit a record of the commit step stands for: its content, with the certificate as proof. -/
def recordedCommit (w : WalInfo T) : Option (Commit T) :=
  w.lock.map fun l =>
    { height := w.height, content := l.content,
      proof := { height := w.height, round := l.lockVotes.round, blockHash := l.lockVotes.blockHash,
                 signature := l.lockVotes.signature } }

/-- A record of the commit step as it should be: it holds a precommit certificate of its own height. -/
structure CommitRecord (w : WalInfo T) : Prop where
  step : w.step = .commit
  lock : ∃ l, w.lock = some l ∧ l.lockRound = w.round ∧ l.lockVotes.height = w.height ∧ l.lockVotes.voteType = .precommit

section
variable [ContentCodec T] [DecidableEq T]

/-- Along the whole schedule `as` from `n`, every step is `ok` in the state in which it is taken. -/
def Along (ok : NodeSys T → NAct T → Prop) (addr : Address) : NodeSys T → List (NAct T) → Prop
  | _, [] => True
  | n, a :: as => ok n a ∧ ∀ n', n.act addr a = some n' → Along ok addr n' as

/-- When the State takes up an order to enter a round or to vote, the order is for the height the State is at.
(Not so if the node has adopted a status meanwhile.) -/
def InSync (n : NodeSys T) : NAct T → Prop
  | .arm .event _ _ => ∀ ev q h, n.stQ = ev :: q → orderHeight ev = some h → h = n.st.height
  | _ => True

/-- The round of the next trigger is not the last `u64`. -/
def RoundSmall (n : NodeSys T) : NAct T → Prop
  | .smr => ∀ t q, n.sys.trigQ = t :: q → t.round < 2 ^ 64 - 1
  | _ => True

/-- What the storage and the application give to a node that starts: the record saved last, if the node is in the
list; otherwise a height not below those at which it has saved. Nothing was ever saved for height 0. -/
def StartOk (addr : Address) (n : NodeSys T) : NAct T → Prop
  | .start p e _ =>
    if (p.list.map Node.address).contains addr then
      match lastSaved n.log with
      | none => e.walLoad = some none
      | some w => w.height ≠ 0 ∧ ∃ b, e.walLoad = some (some b) ∧ decWalInfo b = .ok w
    else ∀ w ∈ savedOf n.log, w.height ≤ p.initHeight
  | _ => True

/-- The application answers commits with a status of a later height, for which a leader can be found. -/
def CommitsAnswered (e : Env T) : Prop :=
  ∀ k c st, e.commit k c = some st →
    k < st.height ∧ ∃ l, (Authority.update st.authorityList).getProposer e.mode st.height INIT_ROUND = .ok l

/-- `CommitsAnswered` for the step that is taken. -/
def AnswersOk (_ : NodeSys T) : NAct T → Prop
  | .arm _ e _ => CommitsAnswered e
  | .start _ e _ => CommitsAnswered e
  | _ => True

/-- Since the last start of the node, the signature of the message has been verified against the list `a`. -/
def CheckedIn (addr : Address) (as : List (NAct T)) (m : OverlordMsg T) (a : Authority) : Prop :=
  ∃ as1 c i as2 n, as = as1 ++ .verifyDone c i :: as2 ∧ (∀ p e cut, .start p e cut ∉ as2) ∧
    (NodeSys.new addr).run addr as1 = some n ∧ n.verifying[i]? = some (m, a) ∧ verifyTask c m a = true

/-- Since its last start, the node has received the message when its height was still below that of the message. -/
def ArrivedEarly (addr : Address) (as : List (NAct T)) (m : OverlordMsg T) : Prop :=
  ∃ as1 e cut as2 n k, as = as1 ++ .arm (.raw m) e cut :: as2 ∧ (∀ p e cut, .start p e cut ∉ as2) ∧
    (NodeSys.new addr).run addr as1 = some n ∧ m.getHeight? = some k ∧ n.st.height < k

/-- `check_block` succeeded for this height, hash and content. -/
def BlockChecked (addr : Address) (as : List (NAct T)) (k : Nat) (h : Hash) (c : T) : Prop :=
  ∃ as1 i as2 n r, as = as1 ++ .checkDone i true :: as2 ∧ (NodeSys.new addr).run addr as1 = some n ∧
    n.checking[i]? = some (k, r, h, c)

/-- A block hash stands for one height and one content, `f` of it: in the proposals that arrive and in the blocks the
application makes. -/
def HashFixes (f : Hash → Nat × T) (_ : NodeSys T) : NAct T → Prop
  | .arm a e _ =>
    (∀ sp, a = .raw (.signedProposal sp) → f sp.proposal.blockHash = (sp.proposal.height, sp.proposal.content)) ∧
    ∀ k b h, e.getBlock k = some (b, h) → f h = (k, b)
  | _ => True

/-- Saving a record does not fail. -/
def SavesWork (_ : NodeSys T) : NAct T → Prop
  | .arm _ e _ => ∀ b, e.walSave b = true
  | .start _ e _ => ∀ b, e.walSave b = true
  | _ => True

/-- What is loaded at a start was saved before. -/
def LoadsSaved (n : NodeSys T) : NAct T → Prop
  | .start _ e _ => ∀ b w, e.walLoad = some (some b) → decWalInfo b = .ok w → w ∈ savedOf n.log
  | _ => True

end

end Overlord.Spec
