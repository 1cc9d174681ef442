import Verif.Props.Traffic
import Verif.Proofs.GoodSt2

/-!
# C61: how often a node broadcasts the certificate of a round
-/

set_option linter.unusedSimpArgs false
set_option linter.unusedVariables false
set_option linter.unusedSectionVars false

namespace Overlord
open M Spec

variable {T : Type} [ContentCodec T] [DecidableEq T]

/-- **C61.** A vote for a round and type whose certificate the node already has does nothing at all. -/
theorem C61_late_votes_inert (e : Env T) (s : State T) (sv : SignedVote) (qc : AggregatedVote)
    (h : s.votes.getQcById sv.vote.height sv.vote.round sv.vote.voteType = .ok qc) :
    effects e (.verified (.signedVote sv)) s = [] ∧ next e (.verified (.signedVote sv)) s = s := by
  suffices H : (runArm (.verified (.signedVote sv)) e ⟨s, []⟩).2 = (⟨s, []⟩ : World T) by
    unfold effects next; rw [H]; exact ⟨rfl, rfl⟩
  have key : wp (runArm (.verified (.signedVote sv))) e ⟨s, []⟩ (fun _ w => w = (⟨s, []⟩ : World T)) (fun _ w => w = ⟨s, []⟩) := by
    unfold runArm handleMsg handleSignedVote verifyAddress
    wps
    rw [h]
    refine ⟨fun _ => trivial, fun _ => ⟨fun _ => trivial, fun _ => ⟨fun _ => rfl, fun _ => ?_⟩⟩⟩
    exact ⟨fun _ => ⟨fun _ => trivial, fun _ => trivial⟩, fun _ => trivial⟩
  unfold wp at key
  split at key <;> rename_i hh <;> rw [hh] <;> exact key

/-- Whether the node is past the height or has the certificate. -/
def Settled (h r : Nat) (ty : VoteType) (s : State T) : Prop :=
  h < s.height ∨ (s.height = h ∧ ∃ qc, s.votes.getQcById h r ty = .ok qc)

theorem settled_setQc {h r : Nat} {ty : VoteType} {c : VoteCollector} (q : AggregatedVote)
    (hq : ∃ qc, c.getQcById h r ty = .ok qc) : ∃ qc, (c.setQc q).getQcById h r ty = .ok qc := by
  obtain ⟨qc, hq⟩ := hq
  rw [getQcById_iff] at hq
  by_cases hc : q.height = h ∧ q.round = r ∧ q.voteType = ty
  · obtain ⟨rfl, rfl, rfl⟩ := hc
    exact ⟨q, getQcById_setQc c q⟩
  · refine ⟨qc, ?_⟩
    rw [getQcById_iff, qcId_setQc]
    rw [if_neg hc]; exact hq

theorem settled_micro {h r : Nat} {ty : VoteType} {e : Env T} {i : Input T} (hi : i ≠ .start) {s : State T} {eff} {s' : State T}
    (hs : Settled h r ty s) (hm : Micro e i s eff s') : Settled h r ty s' := by
  unfold Settled at *
  cases hm
  case restorePos => contradiction
  all_goals first
    | exact hs
    | (rcases hs with hs | ⟨h1, h2⟩
       · exact .inl hs
       · exact .inr ⟨h1, settled_setQc _ h2⟩)
    | skip
  case recvVote =>
    rcases hs with hs | ⟨h1, h2⟩
    · exact .inl hs
    · exact .inr ⟨h1, by simpa only [Good.getQcById_insertVote_same] using h2⟩
  case castVote =>
    rcases hs with hs | ⟨h1, h2⟩
    · exact .inl hs
    · refine .inr ⟨h1, ?_⟩
      dsimp only
      split
      · simpa only [Good.getQcById_insertVote_same] using h2
      · exact h2
  all_goals
    left
    simp only [State.moved, State.adopted]
    omega

theorem settled_after {h r : Nat} {ty : VoteType} : ∀ (l : List (Env T × Input T)) (s s' : State T), (∀ x ∈ l, x.2 ≠ .start) →
    Settled h r ty s → s.after l = some s' → Settled h r ty s'
  | [], s, s', _, hs, h => by simp only [State.after, Option.some.injEq] at h; exact h ▸ hs
  | (e, i) :: l, s, s', hn, hs, ha => by
    simp only [State.after] at ha
    split at ha
    · rename_i w hw
      refine settled_after l w.st s' (fun x hx => hn x (List.mem_cons_of_mem _ hx)) ?_ ha
      have := arm_state_inv (e := e) (i := i) (P := Settled h r ty) hs
        (fun s eff s' hp hm => settled_micro (hn (e, i) List.mem_cons_self) hp hm)
      rw [next, hw] at this
      exact this
    · cases ha

/-- Certificates are broadcast by one kind of step only. -/
theorem micro_cert {e : Env T} {i : Input T} {s s' : State T} {eff} {q : AggregatedVote} (hm : Micro e i s eff s')
    (hq : .broadcast (.aggregatedVote q) ∈ eff) :
    q.height = s.height ∧ q.round = s.round ∧ s' = { s with votes := s.votes.setQc q } ∧
      ((∃ h lr, VoteInput i q.voteType h lr) ∨
        ∃ sv, i = .verified (.signedVote sv) ∧ sv.vote.voteType = q.voteType ∧ sv.vote.height = s.height) := by
  cases hm
  case genQc =>
    rename_i hi _ _ _
    simp only [List.mem_singleton, Effect.broadcast.injEq, OverlordMsg.aggregatedVote.injEq] at hq
    subst hq
    refine ⟨rfl, rfl, rfl, ?_⟩
    rcases hi with ⟨h, lr, h1, _⟩ | h
    · exact .inl ⟨h, lr, h1⟩
    · exact .inr h
  case enterRound => split at hq <;> simp at hq
  case castVote => simp at hq; split at hq <;> simp at hq
  all_goals simp at hq

/-- What was broadcast is stored. -/
theorem broadcast_settles {e : Env T} {i : Input T} {s : State T} {q : AggregatedVote}
    (hq : .broadcast (.aggregatedVote q) ∈ effects e i s) (hi : i ≠ .start) :
    Settled q.height q.round q.voteType (next e i s) := by
  have := arm_inv (e := e) (i := i) (s := s)
    (P := fun w => ∀ q, .broadcast (.aggregatedVote q) ∈ w.log → Settled q.height q.round q.voteType w.st) (by simp) (by
      intro w eff s' hp hm q hq
      rcases List.mem_append.1 hq with hq | hq
      · exact settled_micro hi (hp q hq) hm
      · obtain ⟨h1, h2, rfl, _⟩ := micro_cert hm hq
        exact .inr ⟨h1.symm, _, getQcById_setQc _ _⟩)
  exact this q hq

theorem vote_pos {e : Env T} {sv : SignedVote} {s s' : State T} {eff}
    (hm : Micro e (.verified (.signedVote sv)) s eff s') : s'.height = s.height ∧ s'.round = s.round := by
  cases hm
  case enterRound hi => rename_i hi; obtain ⟨_, _, _, h⟩ := hi; cases h
  case restorePos hi _ _ => cases hi
  case move => rename_i hi _ _; simp at hi
  case moveLost => rename_i hi _; simp at hi
  case adopt => rename_i hi _ _; simp at hi
  all_goals exact ⟨rfl, rfl⟩

/-- A vote outside the window does nothing. -/
theorem filtered_inert (e : Env T) (s : State T) (sv : SignedVote)
    (h : s.filterMessage sv.vote.height sv.vote.round = true) : effects e (.verified (.signedVote sv)) s = [] := by
  suffices H : (runArm (.verified (.signedVote sv)) e ⟨s, []⟩).2 = (⟨s, []⟩ : World T) by
    unfold effects; rw [H]
  have key : wp (runArm (.verified (.signedVote sv))) e ⟨s, []⟩ (fun _ w => w = (⟨s, []⟩ : World T)) (fun _ w => w = ⟨s, []⟩) := by
    unfold runArm handleMsg handleSignedVote
    wps
    exact ⟨fun _ => trivial, fun _ => ⟨fun _ => trivial, fun hn => absurd h hn⟩⟩
  unfold wp at key
  split at key <;> rename_i hh <;> rw [hh] <;> exact key

/-- What a vote that makes the node broadcast a certificate is like. -/
theorem vote_broadcast {e : Env T} {sv : SignedVote} {s : State T} {q : AggregatedVote}
    (hq : .broadcast (.aggregatedVote q) ∈ effects e (.verified (.signedVote sv)) s) :
    q.height = s.height ∧ q.round = s.round ∧ q.voteType = sv.vote.voteType ∧ sv.vote.height = s.height ∧
      s.round ≤ sv.vote.round ∧ ∀ qc, s.votes.getQcById sv.vote.height sv.vote.round sv.vote.voteType ≠ .ok qc := by
  have hno : ∀ qc, s.votes.getQcById sv.vote.height sv.vote.round sv.vote.voteType ≠ .ok qc := by
    intro qc h
    rw [(C61_late_votes_inert e s sv qc h).1] at hq
    cases hq
  obtain ⟨s1, eff, s2, ⟨hp1, hp2⟩, hm, hx⟩ := arm_effect (e := e) (i := .verified (.signedVote sv)) (s := s)
    (P := fun s' => s'.height = s.height ∧ s'.round = s.round) ⟨rfl, rfl⟩
    (fun s1 eff s2 hp hm => by have := vote_pos hm; exact ⟨this.1.trans hp.1, this.2.trans hp.2⟩) hq
  obtain ⟨h1, h2, _, h3⟩ := micro_cert hm hx
  rcases h3 with ⟨_, _, h3⟩ | ⟨sv', h3, h4, h5⟩
  · cases hty : q.voteType <;> rw [hty] at h3 <;> simp [VoteInput] at h3
  · cases h3
    refine ⟨h1.trans hp1, h2.trans hp2, h4.symm, h5.trans hp1, ?_, hno⟩
    rcases Nat.lt_or_ge sv.vote.round s.round with hlt | hge
    · rw [filtered_inert e s sv (by
        unfold State.filterMessage
        rw [if_pos (.inr ⟨h5.trans hp1, hlt⟩)])] at hq
      cases hq
    · exact hge

/-- **C61** (partial: between two broadcasts of certificates of the same height, round and type the second is for the
node's own vote, or for a vote of a *later* round; without these two exceptions the certificate would be broadcast once,
and the second one is unlimited, see `C61_false_for_later_votes`). Whatever the node takes up in between, short of a
restart. -/
theorem C61_once_partial (s1 s2 : State T) (e1 e2 : Env T) (i1 i2 : Input T) (mid : List (Env T × Input T))
    (q1 q2 : AggregatedVote) (hrun : s1.after ((e1, i1) :: mid) = some s2)
    (hst : ∀ x ∈ (e1, i1) :: mid, x.2 ≠ .start)
    (h1 : .broadcast (.aggregatedVote q1) ∈ effects e1 i1 s1) (h2 : .broadcast (.aggregatedVote q2) ∈ effects e2 i2 s2)
    (h2s : i2 ≠ .start)
    (hh : q1.height = q2.height) (hr : q1.round = q2.round) (hty : q1.voteType = q2.voteType) :
    (∃ sv, i2 = .verified (.signedVote sv) ∧ sv.vote.height = q2.height ∧ q2.round < sv.vote.round) ∨
      (∃ h r b l, i2 = .event (.prevoteVote h r b l) ∧ q2.voteType = .prevote) ∨
      ∃ h r b l, i2 = .event (.precommitVote h r b l) ∧ q2.voteType = .precommit := by
  have hset : Settled q1.height q1.round q1.voteType s2 := by
    simp only [State.after] at hrun
    split at hrun
    · rename_i w hw
      have := broadcast_settles h1 (hst (e1, i1) List.mem_cons_self)
      rw [next, hw] at this
      exact settled_after mid _ _ (fun x hx => hst x (List.mem_cons_of_mem _ hx)) this hrun
    · cases hrun
  cases i2 with
  | start => exact absurd rfl h2s
  | event ev =>
    obtain ⟨s3, eff, s4, _, hm, hx⟩ := arm_effect (P := fun _ => True) trivial (fun _ _ _ _ _ => trivial) h2
    obtain ⟨_, _, _, ⟨b, l, h, r, hi⟩ | ⟨sv, hi, _⟩⟩ := micro_cert hm hx
    · cases hq : q2.voteType <;> rw [hq] at hi
      · exact .inr (.inl ⟨h, r, b, l, hi, rfl⟩)
      · exact .inr (.inr ⟨h, r, b, l, hi, rfl⟩)
    · cases hi
  | raw m =>
    have := C60_only_votes_make_it_send e2 (.raw m) s2 (by
      unfold times; exact List.length_pos_of_mem (List.mem_filter.2 ⟨h2, rfl⟩))
    simp at this
  | resp r =>
    have := C60_only_votes_make_it_send e2 (.resp r) s2 (by
      unfold times; exact List.length_pos_of_mem (List.mem_filter.2 ⟨h2, rfl⟩))
    simp at this
  | verified m =>
    have := C60_only_votes_make_it_send e2 (.verified m) s2 (by
      unfold times; exact List.length_pos_of_mem (List.mem_filter.2 ⟨h2, rfl⟩))
    simp at this
    obtain ⟨sv, rfl⟩ := this
    obtain ⟨g1, g2, g3, g4, g5, g6⟩ := vote_broadcast h2
    left
    refine ⟨sv, rfl, g4.trans g1.symm, ?_⟩
    rcases Nat.lt_or_ge q2.round sv.vote.round with hlt | hge
    · exact hlt
    · have he : sv.vote.round = q2.round := by omega
      rcases hset with hset | ⟨hs1, qc, hs2⟩
      · omega
      · refine absurd ?_ (g6 qc)
        rw [g4, ← g1, he, ← g3, ← hh, ← hr, ← hty]
        exact hs2


/-! ### The exceptions are real -/

namespace TrafficDemo
open StDemo

/-- The votes of the round, and the vote of the next round that makes the node repeat itself. -/
def three : List (Env C × Input C) :=
  [2, 3, 4].map fun a => (env, .verified (.signedVote (vote a 7 0 .prevote [5])))
def later : Input C := .verified (.signedVote (vote 2 7 1 .prevote [5]))

/-- The certificate that is built from the three votes. -/
def built : AggregatedVote :=
  { cert [2, 3, 4] 7 0 .prevote [5] with leader := [1] }

/-- The node after the three votes and one of the later round. -/
def there : State C := ((st0.after (three ++ [(env, later)])).getD st0)

theorem trace_app (s : State C) (l m : List (Env C × Input C)) {s' : State C} (h : s.after l = some s') :
    s.trace (l ++ m) = s.trace l ++ s'.trace m := by
  induction l generalizing s with
  | nil => simp only [State.after, Option.some.injEq] at h; subst h; rfl
  | cons x l ih =>
    obtain ⟨e, i⟩ := x
    simp only [State.after] at h
    split at h
    · rename_i w hw
      simp only [List.cons_append, State.trace, hw]
      rw [ih _ h, List.append_assoc]
    · cases h

theorem again : ∀ n, n ≤ times (isCert built) (there.trace (List.replicate n (env, later)))
  | 0 => Nat.zero_le _
  | n + 1 => by
    have h : runArm later env ⟨there, []⟩ = (.ok true, ⟨there, [.broadcast (.aggregatedVote built)]⟩) := by decide +kernel
    rw [List.replicate_succ, State.trace, h]
    have := again n
    simp only [times_app]
    have h1 : times (isCert built) ([.broadcast (.aggregatedVote built)] : List (Effect C)) = 1 := by decide +kernel
    omega

end TrafficDemo

/-- **C61** is false in full: a node that has built and broadcast the certificate of its round broadcasts it again for
every vote of a later round, even for copies of one and the same vote. One validator can make every node to which it sends
such a vote repeat a broadcast as often as it likes. -/
theorem C61_false_for_later_votes :
    ∃ (s : State StDemo.C) (ins : List (Env StDemo.C × Input StDemo.C)) (x : Env StDemo.C × Input StDemo.C) (qc : AggregatedVote),
      s = State.new [1] 7 3000 StDemo.nodes ∧
      ∀ n, n ≤ times (isCert qc) (s.trace (ins ++ List.replicate n x)) := by
  refine ⟨StDemo.st0, TrafficDemo.three ++ [(StDemo.env, TrafficDemo.later)], (StDemo.env, TrafficDemo.later), TrafficDemo.built, rfl, fun n => ?_⟩
  have h : StDemo.st0.after (TrafficDemo.three ++ [(StDemo.env, TrafficDemo.later)]) = some TrafficDemo.there := by decide +kernel
  rw [TrafficDemo.trace_app _ _ _ h, times_app]
  have := TrafficDemo.again n
  omega

namespace TrafficDemo
open StDemo

/-- The hypotheses of `C61_once_partial` are met, by the last of the three votes and the later one. -/
example : ∃ s1 s2, st0.after (three.take 2) = some s1 ∧ s1.after (three.drop 2) = some s2 ∧
    .broadcast (.aggregatedVote built) ∈ effects env (.verified (.signedVote (vote 4 7 0 .prevote [5]))) s1 ∧
    .broadcast (.aggregatedVote built) ∈ effects env later s2 := by
  refine ⟨(st0.after (three.take 2)).getD st0, (st0.after three).getD st0, ?_⟩
  decide +kernel

/-- A fourth vote of the round itself finds the certificate and does nothing (`C61_late_votes_inert`). -/
example : ∃ s, st0.after three = some s ∧ s.votes.getQcById 7 0 .prevote = .ok built ∧
    effects env (.verified (.signedVote (vote 1 7 0 .prevote [5]))) s = [] := by
  refine ⟨(st0.after three).getD st0, ?_⟩
  decide +kernel

end TrafficDemo

end Overlord
