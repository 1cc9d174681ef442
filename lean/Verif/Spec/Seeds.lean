import Verif.Model.State
import Verif.Spec.Authority

/-!
# Two runs that differ only in the order in which hash tables are iterated

Rust seeds its hash tables at random, so two runs of one node may iterate the same table in different orders. Here is
what it means that this makes no difference: the same things are done in the same order, the same is kept; only

* the voters named in a choke certificate the node puts together may be listed in a different order (and so in the
  chokes and log records that carry the certificate), and
* signature checks of cached messages may be started in a different order.
-/

namespace Overlord.Spec

variable {T : Type}

/-- The same certificate, with its voters possibly in another order. -/
def SameCert (a b : AggregatedChoke) : Prop :=
  a.height = b.height ∧ a.round = b.round ∧ a.signature = b.signature ∧ a.voters.Perm b.voters

/-- The same justification of a round. -/
def SameReason : UpdateFrom → UpdateFrom → Prop
  | .chokeQC a, .chokeQC b => SameCert a b
  | .prevoteQC a, .prevoteQC b => a = b
  | .precommitQC a, .precommitQC b => a = b
  | _, _ => False

/-- The same choke. -/
def SameChoke (a b : SignedChoke) : Prop :=
  a.signature = b.signature ∧ a.address = b.address ∧ a.choke.height = b.choke.height ∧ a.choke.round = b.choke.round ∧
    SameReason a.choke.from b.choke.from

/-- The same collected chokes and choke certificates. -/
def SameChokes (a b : ChokeCollector) : Prop :=
  List.Forall₂ (fun p q : Nat × AMap Address SignedChoke => p.1 = q.1 ∧
    List.Forall₂ (fun x y : Address × SignedChoke => x.1 = y.1 ∧ SameChoke x.2 y.2) p.2 q.2) a.chokes b.chokes ∧
  List.Forall₂ (fun p q : Nat × AggregatedChoke => p.1 = q.1 ∧ SameCert p.2 q.2) a.qcs b.qcs

/-- The same state: height, round, role, lists, proposals, votes, certificates, blocks and check results are equal. -/
def SameState (s t : State T) : Prop :=
  t = { s with chokes := t.chokes, updateFrom := t.updateFrom } ∧ SameChokes s.chokes t.chokes ∧
    SameReason s.updateFrom t.updateFrom

/-- The same log record. -/
def SameRecord (v w : WalInfo T) : Prop := w = { v with «from» := w.from } ∧ SameReason v.from w.from

/-- The same action: all actions are equal, up to the order of voters in choke certificates inside broadcast chokes and
log records. -/
def SameEffect : Effect T → Effect T → Prop
  | .broadcast (.signedChoke a), .broadcast (.signedChoke b) => SameChoke a b
  | .saveWal v a, .saveWal w b => SameRecord v w ∧ a = b
  | x, y => x = y

/-- A signature check is started. -/
def isSigCheck : Effect T → Bool
  | .spawnVerify _ _ => true
  | _ => false

/-- Everything except chokes, log records and signature checks: proposals, votes, certificates, reports to the voting
logic, commits, block requests and checks, view changes, and what is passed on unverified. -/
def plain : Effect T → Bool
  | .broadcast (.signedChoke _) => false
  | .saveWal _ _ => false
  | .spawnVerify _ _ => false
  | _ => true

/-- The same actions in the same order; signature checks in any order. -/
def SameWork (l l' : List (Effect T)) : Prop :=
  List.Forall₂ SameEffect (l.filter fun x => !isSigCheck x) (l'.filter fun x => !isSigCheck x) ∧
    (l.filter isSigCheck).Perm (l'.filter isSigCheck)

/-- The results of two runs: both go on in the same state, or both have ended. -/
def SameEnd : Option (State T) → Option (State T) → Prop
  | some s, some t => SameState s t
  | none, none => True
  | _, _ => False

/-- The same answers of application, storage and cryptography; hash tables may be iterated in another order. -/
def SameAnswers (e e' : Env T) : Prop := ∃ sh, e' = { e with sh := sh }

/-- The same inputs and answers. -/
def SameInputs (ins ins' : List (Env T × Input T)) : Prop :=
  List.Forall₂ (fun p q => SameAnswers p.1 q.1 ∧ p.2 = q.2) ins ins'

/-- Aggregation does not depend on the order of the signatures (as for BLS, where it is a sum). -/
def OrderBlind (c : Crypto) : Prop :=
  ∀ l l' : List (Signature × Address), l.Perm l' →
    c.aggregate (l.map Prod.fst) (l.map Prod.snd) = c.aggregate (l'.map Prod.fst) (l'.map Prod.snd)

/-- A proper list of validators: no validator twice, weights are `u32`, at most 2^30 validators. -/
def ProperList (l : List Node) : Prop := Distinct l ∧ Sized l

/-- A proper answer to a commit: a status of a later height with a proper list, for which a leader can be found. -/
def ProperCommits (e : Env T) : Prop :=
  ∀ k c st, e.commit k c = some st → k < st.height ∧ ProperList st.authorityList ∧
    ∃ l, (Authority.update st.authorityList).getProposer e.mode st.height INIT_ROUND = .ok l

/-- A proper step: storage works, commits are answered properly, aggregation does not depend on the order, statuses from
outside carry proper lists. -/
def ProperStep (e : Env T) (i : Input T) : Prop :=
  (∀ b, e.walSave b = true) ∧ ProperCommits e ∧ OrderBlind e.crypto ∧
    ∀ st, i = .verified (.richStatus st) → ProperList st.authorityList

/-- A proper history: only proper steps, and the start, if any, comes first. -/
def ProperHistory (ins : List (Env T × Input T)) : Prop :=
  (∀ p ∈ ins, ProperStep p.1 p.2) ∧ ∀ p ∈ ins.tail, p.2 ≠ .start

end Overlord.Spec
