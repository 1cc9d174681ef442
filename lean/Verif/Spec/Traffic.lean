import Verif.Model.Node

/-!
# Specification vocabulary for C60, C61: how much a node does for what it takes up
-/

namespace Overlord.Spec

variable {T : Type}

/-- Messages to other nodes. -/
def outbound : Effect T → Bool
  | .broadcast _ => true
  | .transmit _ _ => true
  | _ => false

/-- How often something is done. -/
def times (p : Effect T → Bool) (l : List (Effect T)) : Nat := (l.filter p).length

def isCommitCall : Effect T → Bool
  | .commitCall _ _ _ => true
  | _ => false
def isGetBlock : Effect T → Bool
  | .getBlock _ _ => true
  | _ => false
def isCheck : Effect T → Bool
  | .spawnCheck _ _ _ _ => true
  | _ => false
def isSave : Effect T → Bool
  | .saveWal _ _ => true
  | _ => false
def isReport : Effect T → Bool
  | .reportViewChange _ _ _ => true
  | _ => false
def isTrigger : Effect T → Bool
  | .trigger _ => true
  | _ => false
def isVerify : Effect T → Bool
  | .spawnVerify _ _ => true
  | _ => false

/-- What a node may do at most for one thing that it takes up: messages sent to other nodes, blocks handed to the
application, blocks asked from it, checks asked from it, records written to the write-ahead log, view changes reported,
and orders given to the voting state machine. -/
structure Allowance where
  sends : Nat := 0
  commits : Nat := 0
  requests : Nat := 0
  checks : Nat := 0
  saves : Nat := 0
  reports : Nat := 0
  orders : Nat := 0

/-- The allowance for each kind of input: the start of the node; a message as it arrives (which is at most handed to a
verification task); a decision of its own voting state machine; the application's answer to a check; a verified message. -/
def allowance : Input T → Allowance
  | .start => { sends := 1, commits := 1, saves := 2, orders := 2 }
  | .raw _ => {}
  | .event (.newRoundInfo ..) => { sends := 1, requests := 1, checks := 1, saves := 1, reports := 1, orders := 1 }
  | .event (.prevoteVote ..) => { sends := 1, saves := 1, orders := 1 }
  | .event (.precommitVote ..) => { sends := 1, saves := 1, orders := 1 }
  | .event (.commit _) => { commits := 1, saves := 2, orders := 1 }
  | .event (.brake ..) => { sends := 1, saves := 1, orders := 1 }
  | .event .stop => {}
  | .resp _ => { orders := 1 }
  | .verified (.signedProposal _) => { checks := 1, orders := 1 }
  | .verified (.signedVote _) => { sends := 1, orders := 1 }
  | .verified (.aggregatedVote _) => { orders := 1 }
  | .verified (.richStatus _) => { saves := 1, orders := 1 }
  | .verified (.signedChoke _) => { orders := 1 }
  | .verified .stop => { orders := 1 }

/-- The log `l` stays within the allowance `a`. -/
structure Allowance.Covers (a : Allowance) (l : List (Effect T)) : Prop where
  sends : times outbound l ≤ a.sends
  commits : times isCommitCall l ≤ a.commits
  requests : times isGetBlock l ≤ a.requests
  checks : times isCheck l ≤ a.checks
  saves : times isSave l ≤ a.saves
  reports : times isReport l ≤ a.reports
  orders : times isTrigger l ≤ a.orders

/-- The steps of a node's life at which its State takes up an event of the voting state machine, a verified message,
or at which the node is started. -/
def isEventStep : NAct T → Bool
  | .arm .event _ _ => true
  | _ => false
def isVerifiedStep : NAct T → Bool
  | .arm .verified _ _ => true
  | _ => false
def isStartStep : NAct T → Bool
  | .start .. => true
  | _ => false

/-- Broadcasts of this certificate. -/
def isCert [DecidableEq T] (qc : AggregatedVote) (x : Effect T) : Bool := decide (x = .broadcast (.aggregatedVote qc))

end Overlord.Spec
