import Verif.Model.State

/-!
# Messages that arrive several times

Networks repeat messages. Here are histories with and without repetitions.
-/

namespace Overlord.Spec

variable {T : Type}

/-- What may be repeated: messages from the network (before and after their signatures are checked) and answers of block
checks. -/
def repeatable : Input T → Bool
  | .raw _ => true
  | .verified _ => true
  | .resp _ => true
  | _ => false

/-- The second history is the first one in which some messages arrive several times in a row. -/
inductive Repeats : List (Env T × Input T) → List (Env T × Input T) → Prop
  | nil : Repeats [] []
  | cons (p : Env T × Input T) {l l' : List (Env T × Input T)} : Repeats l l' → Repeats (p :: l) (p :: l')
  | again (p : Env T × Input T) {l l' : List (Env T × Input T)} : repeatable p.2 = true → Repeats (p :: l) (p :: l') →
      Repeats (p :: l) (p :: p :: l')

/-- What matters to the rest of the world, apart from certificates: votes, proposals and chokes sent, votes put in the own
pool, log records, commits, blocks asked for, view changes reported. -/
def weighty : Effect T → Bool
  | .broadcast (.aggregatedVote _) => false
  | .broadcast _ => true
  | .transmit _ _ => true
  | .ownVote _ => true
  | .saveWal _ _ => true
  | .getBlock _ _ => true
  | .commitCall _ _ _ => true
  | .reportViewChange _ _ _ => true
  | _ => false

end Overlord.Spec
