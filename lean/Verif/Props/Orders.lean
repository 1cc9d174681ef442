import Verif.Proofs.OrderNet
import Verif.Proofs.GoodDemo
import Verif.Props.Net2

/-!
# C53: orders are carried out

The voting state machine only sends orders to the State: to enter a round, to vote, to ask for a new round, to commit. Here: in a
network, if at most a third of the weight is faulty, an order of the State's height that a correct node takes up is carried out; no
lookup of a lock, a certificate or a block fails. Only saving and signing must work.
-/

set_option linter.unusedSimpArgs false
set_option linter.unusedVariables false
set_option linter.unusedSectionVars false

namespace Overlord
open M Spec Rdy

variable {T : Type} [ContentCodec T] [DecidableEq T]

section
variable {f : Hash → Nat × T} {lists : Nat → List Node} {correct : Address → Bool} {mode : LeaderMode} {leader : Nat → Nat → Address}

/-- What node `a` does when it takes up the next order, in the environment `e`. -/
theorem event_act {N : NetSys T} {a : Address} (hd : (N.nodes a).down = false) {ev : SMREvent} {q : List SMREvent}
    (hq : (N.nodes a).stQ = ev :: q) (e : Env T) :
    ∃ N', N.act a (.arm .event e none) = some N' ∧
      (N'.nodes a).log = (N.nodes a).log ++ (runArm (.event ev) e ⟨(N.nodes a).st, []⟩).2.log ∧
      (N'.nodes a).st = (runArm (.event ev) e ⟨(N.nodes a).st, []⟩).2.st ∧
      N'.votes = N.votes ++ (votesOf (runArm (.event ev) e ⟨(N.nodes a).st, []⟩).2.log).map fun sv => (a, sv.vote) := by
  have ha : (N.nodes a).act a (.arm .event e none) =
      some ({ N.nodes a with stQ := q }.took none (runArm (.event ev) e ⟨(N.nodes a).st, []⟩)) := by
    simp [NodeSys.act, hd, NodeSys.take, hq]
  have hl : ({ N.nodes a with stQ := q }.took none (runArm (.event ev) e ⟨(N.nodes a).st, []⟩)).log =
      (N.nodes a).log ++ (runArm (.event ev) e ⟨(N.nodes a).st, []⟩).2.log := by
    simp [NodeSys.took, NodeSys.absorb, cutTo]
  unfold NetSys.act
  rw [ha]
  refine ⟨_, rfl, ?_, ?_, ?_⟩
  · simp only [if_true]; exact hl
  · simp only [if_true]; rfl
  · dsimp only
    rw [hl, List.drop_left]

/-- **C53.** An order to vote is carried out: the vote is released, in the node's own name, to the leader of the round. (In round 0,
after a start with an empty storage, the node does not know the leader; the code then sends the vote to the empty address.) -/
theorem C53_votes_partial (hE : Encodes T) (hgl : GoodLists lists) (few : FewFaulty lists correct) (hL : LeadersExist lists mode leader)
    (as : List (Address × NAct T)) (N : NetSys T) (hr : NetSys.new.run as = some N) (ok : OrderSchedule f lists correct mode as)
    (a : Address) (hc : correct a = true) (hd : (N.nodes a).down = false) (hp : (N.nodes a).st.consensusPower = true)
    (hs : (N.nodes a).st.stopped = false) (e : Env T) (hw : Works e)
    (ty : VoteType) (k r : Nat) (x : Hash) (lr : Option Nat) (q : List SMREvent)
    (hq : (N.nodes a).stQ = (match ty with
      | .prevote => .prevoteVote k r x lr
      | .precommit => .precommitVote k r x lr) :: q) (hk : k = (N.nodes a).st.height) :
    ∃ N' l sv, N.act a (.arm .event e none) = some N' ∧ (N'.nodes a).log = (N.nodes a).log ++ l ∧
      sv.vote = ⟨k, r, ty, x⟩ ∧ sv.voter = a ∧ (a, sv.vote) ∈ N'.votes ∧
      ((leader k r = a ∧ .ownVote sv ∈ l) ∨ (leader k r ≠ a ∧ .transmit (leader k r) (.signedVote sv) ∈ l) ∨
        (r = 0 ∧ .transmit [] (.signedVote sv) ∈ l)) := by
  obtain ⟨hn, ho⟩ := net_orders (leader := leader) hE hgl few hL hr ok
  have ho := ho a hc hd
  obtain ⟨h1, h2⟩ := (hn.node a hc).up hd
  have hst := ((hn.gen.gen a hc).up hd).st
  have hle := ((hn.inv a hc).live hd).smrLe
  generalize hev : (match ty with
      | .prevote => SMREvent.prevoteVote k r x lr
      | .precommit => SMREvent.precommitVote k r x lr) = ev at hq
  have hmem : ev ∈ (N.nodes a).stQ := by rw [hq]; exact List.mem_cons_self ..
  have her : EReady f (Certified lists correct N.votes) (N.nodes a).st ev := h2.ev ev hmem
  have hh : (N.nodes a).sys.smr.height = (N.nodes a).st.height := by
    have := ho.le ev hmem k (by subst hev; cases ty <;> rfl)
    omega
  have hord := ho.ord hp hh
  rw [hq] at hord
  have hent : Ent leader (N.nodes a).st ∧ r = (N.nodes a).st.round := by
    subst hev; cases ty <;> exact hord.1 hk
  obtain ⟨hent, hrr⟩ := hent
  have hls : LockStored (N.nodes a).st lr := by
    refine hn.lock few hc hd hp ?_
    rw [← hk]
    subst hev; cases ty <;> exact her.2.2
  obtain ⟨N', h3, h4, _, h6⟩ := event_act hd hq e
  have hv := event_post (e := e) (ev := ev) (P := fun w => ∃ sv : SignedVote, sv.vote = ⟨(N.nodes a).st.height, (N.nodes a).st.round, ty, x⟩ ∧
      sv.voter = (N.nodes a).st.address ∧
      (if (N.nodes a).st.isLeader then .ownVote sv else .transmit (N.nodes a).st.leaderAddress (.signedVote sv)) ∈ w.log) hp hs (by
    have := Carry.vote hE hw (hash := x) (ty := ty) hls
    subst hev
    unfold handleEvent
    cases ty <;>
    · wps
      exact wp_mono this (fun _ _ o => o) (fun _ _ o => ⟨fun _ => o, fun _ => o⟩))
  obtain ⟨sv, v1, v2, v3⟩ := hv
  rw [← hk, ← hrr] at v1
  rw [hst.2] at v2
  refine ⟨N', _, sv, h3, h4, v1, v2, ?_, ?_⟩
  · rw [h6]
    refine List.mem_append_right _ (List.mem_map.2 ⟨sv, ?_, rfl⟩)
    unfold votesOf
    refine List.mem_filterMap.2 ⟨_, v3, ?_⟩
    split <;> rfl
  · unfold Ent at hent
    rw [hst.2, ← hk, ← hrr] at hent
    rcases hent with ⟨g1, g2⟩ | ⟨g1, g2, g3⟩
    · by_cases hla : leader k r = a
      · left
        rw [decide_eq_true hla] at g2
        rw [g2] at v3
        exact ⟨hla, v3⟩
      · right; left
        rw [decide_eq_false hla] at g2
        rw [g2, g1] at v3
        exact ⟨hla, v3⟩
    · right; right
      rw [g2, g1] at v3
      exact ⟨g3, v3⟩

/-- **C53.** An order to ask for a new round is carried out: the choke is broadcast, in the node's own name. -/
theorem C53_chokes (hE : Encodes T) (hgl : GoodLists lists) (few : FewFaulty lists correct) (hL : LeadersExist lists mode leader)
    (as : List (Address × NAct T)) (N : NetSys T) (hr : NetSys.new.run as = some N) (ok : OrderSchedule f lists correct mode as)
    (a : Address) (hc : correct a = true) (hd : (N.nodes a).down = false) (hp : (N.nodes a).st.consensusPower = true)
    (hs : (N.nodes a).st.stopped = false) (e : Env T) (hw : Works e)
    (k r : Nat) (lr : Option Nat) (q : List SMREvent) (hq : (N.nodes a).stQ = .brake k r lr :: q) (hk : k = (N.nodes a).st.height) :
    ∃ N' l sc, N.act a (.arm .event e none) = some N' ∧ (N'.nodes a).log = (N.nodes a).log ++ l ∧
      .broadcast (.signedChoke sc) ∈ l ∧ sc.address = a ∧ sc.choke.height = k ∧ sc.choke.round = r := by
  obtain ⟨hn, ho⟩ := net_orders (leader := leader) hE hgl few hL hr ok
  have ho := ho a hc hd
  obtain ⟨h1, h2⟩ := (hn.node a hc).up hd
  have hst := ((hn.gen.gen a hc).up hd).st
  have hle := ((hn.inv a hc).live hd).smrLe
  have hmem : .brake k r lr ∈ (N.nodes a).stQ := by rw [hq]; exact List.mem_cons_self ..
  have her : EReady f (Certified lists correct N.votes) (N.nodes a).st (.brake k r lr) := h2.ev (.brake k r lr) hmem
  have hh : (N.nodes a).sys.smr.height = (N.nodes a).st.height := by
    have := ho.le _ hmem k rfl
    omega
  have hord := ho.ord hp hh
  rw [hq] at hord
  obtain ⟨_, hrr⟩ := hord.1 hk
  have hls : LockStored (N.nodes a).st lr := by
    refine hn.lock few hc hd hp ?_
    rw [← hk]
    exact her.2
  obtain ⟨N', h3, h4, _, _⟩ := event_act hd hq e
  have hv := event_post (e := e) (ev := .brake k r lr) (P := fun w => ∃ sc : SignedChoke,
      sc.choke = ⟨(N.nodes a).st.height, (N.nodes a).st.round, (N.nodes a).st.updateFrom⟩ ∧ sc.address = (N.nodes a).st.address ∧
        .broadcast (.signedChoke sc) ∈ w.log) hp hs (by
    have := Carry.brake hE hw hls
    rw [hk, hrr]
    unfold handleEvent
    wps
    refine ⟨fun h => absurd rfl h, fun _ => ?_⟩
    exact wp_mono this (fun _ _ o => o) (fun _ _ o => ⟨fun _ => o, fun _ => o⟩))
  obtain ⟨sc, v1, v2, v3⟩ := hv
  exact ⟨N', _, sc, h3, h4, v3, by rw [v2, hst.2], by rw [v1]; exact hk.symm, by rw [v1]; exact hrr.symm⟩

/-- **C53.** An order to commit a block of the State's height is carried out: the application is asked to commit it, with a
precommit certificate that can exist. -/
theorem C53_commits (hE : Encodes T) (hgl : GoodLists lists) (few : FewFaulty lists correct) (hL : LeadersExist lists mode leader)
    (as : List (Address × NAct T)) (N : NetSys T) (hr : NetSys.new.run as = some N) (ok : OrderSchedule f lists correct mode as)
    (a : Address) (hc : correct a = true) (hd : (N.nodes a).down = false) (hp : (N.nodes a).st.consensusPower = true)
    (hs : (N.nodes a).st.stopped = false) (e : Env T) (hw : Works e)
    (x : Hash) (q : List SMREvent) (hq : (N.nodes a).stQ = .commit x :: q) (hk : (f x).1 = (N.nodes a).st.height) :
    ∃ N' l c res, N.act a (.arm .event e none) = some N' ∧ (N'.nodes a).log = (N.nodes a).log ++ l ∧
      .commitCall (N.nodes a).st.height c res ∈ l ∧ c.proof.blockHash = x ∧ c.content = (f x).2 ∧
      Certified lists correct N.votes .precommit (N.nodes a).st.height c.proof.round x := by
  obtain ⟨hn, ho⟩ := net_orders (leader := leader) hE hgl few hL hr ok
  obtain ⟨h1, h2⟩ := (hn.node a hc).up hd
  have hst := ((hn.gen.gen a hc).up hd).st
  have hmem : .commit x ∈ (N.nodes a).stQ := by rw [hq]; exact List.mem_cons_self ..
  have her : EReady f (Certified lists correct N.votes) (N.nodes a).st (.commit x) := h2.ev (.commit x) hmem
  obtain ⟨⟨qc, hqc⟩, c, hcc⟩ := her.2.2 hk
  obtain ⟨N', h3, h4, _, _⟩ := event_act hd hq e
  have hv := event_post (e := e) (ev := .commit x) (P := fun w => .commitCall (N.nodes a).st.height (mkCommit (N.nodes a).st x c qc)
      (e.commit (N.nodes a).st.height (mkCommit (N.nodes a).st x c qc)) ∈ w.log) hp hs (by
    have := Carry.commit hE hw hcc hqc
    unfold handleEvent
    wps
    exact wp_mono this (fun _ _ o => o) (fun _ _ o => ⟨fun _ => o, fun _ => o⟩))
  obtain ⟨q1, q2, q3, q4⟩ := (hst.1.store hp).votes.getQcByHash hqc
  refine ⟨N', _, _, _, h3, h4, hv, rfl, ?_, ?_⟩
  · have := h2.st.blocks hp x c hcc
    simp [mkCommit, this]
  · have q4 : QcIn (Certified lists correct N.votes) qc := q4 q1
    unfold QcIn at q4
    rw [q1, q2, q3] at q4
    exact q4

/-- **C53.** An order to enter a round is carried out: the State is in the round, knows its leader and has saved it; if it is the leader
and is locked, it proposes the locked block with its lock; if it is the leader and not locked, it proposes the block that the
application gives it. -/
theorem C53_enters (hE : Encodes T) (hgl : GoodLists lists) (few : FewFaulty lists correct) (hL : LeadersExist lists mode leader)
    (as : List (Address × NAct T)) (N : NetSys T) (hr : NetSys.new.run as = some N) (ok : OrderSchedule f lists correct mode as)
    (a : Address) (hc : correct a = true) (hd : (N.nodes a).down = false) (hp : (N.nodes a).st.consensusPower = true)
    (hs : (N.nodes a).st.stopped = false) (e : Env T) (hm : e.mode = mode) (hw : Works e)
    (k r : Nat) (lr : Option Nat) (lp : Option Hash) (fr : FromWhere) (ni : Option Nat) (nc : Option DurationConfig) (q : List SMREvent)
    (hq : (N.nodes a).stQ = .newRoundInfo k r lr lp fr ni nc :: q) (hk : k = (N.nodes a).st.height) :
    ∃ N' l, N.act a (.arm .event e none) = some N' ∧ (N'.nodes a).log = (N.nodes a).log ++ l ∧
      (N'.nodes a).st.round = r ∧ (N'.nodes a).st.leaderAddress = leader k r ∧
      (∃ w, .saveWal w true ∈ l ∧ w.height = k ∧ w.round = r ∧ w.step = .propose ∧ w.lock.map WalLock.lockRound = lr) ∧
      (leader k r = a →
        (lr = none → ∀ b x, e.getBlock k = some (b, x) → ∃ sp, .broadcast (.signedProposal sp) ∈ l ∧
          sp.proposal.height = k ∧ sp.proposal.round = r ∧ sp.proposal.proposer = a ∧ sp.proposal.lock = none ∧
          sp.proposal.blockHash = x ∧ sp.proposal.content = b) ∧
        (∀ j, lr = some j → ∃ sp qc, .broadcast (.signedProposal sp) ∈ l ∧
          sp.proposal.height = k ∧ sp.proposal.round = r ∧ sp.proposal.proposer = a ∧
          sp.proposal.lock = some ⟨j, qc⟩ ∧ qc.height = k ∧ qc.round = j ∧ qc.voteType = .prevote ∧
          lp = some sp.proposal.blockHash ∧ qc.blockHash = sp.proposal.blockHash ∧
          Certified lists correct N.votes .prevote k j sp.proposal.blockHash)) := by
  obtain ⟨hn, ho⟩ := net_orders (leader := leader) hE hgl few hL hr ok
  subst hk
  obtain ⟨h1, h2⟩ := hn.enters hE few hL hc hd hp hs hm hw.saves hq
  have hst := ((hn.gen.gen a hc).up hd).st
  obtain ⟨N', h3, h4, h5, _⟩ := event_act hd hq e
  have her := ((hn.node a hc).up hd).2.ev (.newRoundInfo (N.nodes a).st.height r lr lp fr ni nc) (by rw [hq]; exact List.mem_cons_self ..)
  refine ⟨N', _, h3, h4, by rw [h5]; exact h1.round, by rw [h5]; exact h1.leader, ?_, fun hla => ⟨?_, ?_⟩⟩
  · obtain ⟨lock, g1, g2⟩ := h1.saved
    refine ⟨_, g2, rfl, rfl, rfl, ?_⟩
    cases lr with
    | none => have : lock = none := g1; rw [this]; rfl
    | some j => obtain ⟨qc, c, _, _, rfl⟩ := g1; rfl
  · rintro rfl b x hb
    have hlp : lp = none := by
      rcases her.2.1 with ⟨_, h⟩ | ⟨_, _, h, _⟩
      · exact h
      · cases h
    obtain ⟨sp, g1, g2, g3, g4, g5, g6⟩ := h1.leads (by rw [hst.2]; exact hla) hw.signs (fun _ => by rw [hb]; rfl) (by simp)
    rw [hb] at g6
    cases g6
    exact ⟨sp, g1, g2, g3, by rw [g4, hst.2], g5, rfl, rfl⟩
  · rintro j rfl
    obtain ⟨sp, g1, g2, g3, g4, g5, g6, qc, g7, g8⟩ := h1.leads (by rw [hst.2]; exact hla) hw.signs (by simp) (by
      intro x _ hx
      obtain ⟨c, hcx⟩ := h2 x hx
      rw [hcx]; rfl)
    obtain ⟨q1, q2, q3, q4⟩ := (hst.1.store hp).votes.getQcById g7
    have q4 : QcIn (Certified lists correct N.votes) qc := q4 q1
    unfold QcIn at q4
    rw [q1, q2, q3] at q4
    rcases her.2.1 with ⟨h, _⟩ | ⟨j', y, hj, hy, hlk⟩
    · cases h
    · cases hj
      rw [g5] at hy
      cases hy
      have hu := hn.uniq few _ _ _ _ q4 hlk.1
      exact ⟨sp, qc, g1, g2, g3, by rw [g4, hst.2], g8, q1, q2, q3, g5, hu, hlk.1⟩

/-- **C53.** Correct nodes vote only for blocks of the height of the vote. -/
theorem C53_votes_fit (hE : Encodes T) (hgl : GoodLists lists) (few : FewFaulty lists correct)
    (as : List (Address × NAct T)) (N : NetSys T) (hr : NetSys.new.run as = some N) (ok : OrderSchedule f lists correct mode as)
    (a : Address) (hc : correct a = true) (v : Vote) (hv : (a, v) ∈ N.votes) (hne : v.blockHash ≠ []) : (f v.blockHash).1 = v.height :=
  (netReady_run hgl few as _ N (netReady_new f lists correct) ok hr).fit a v hc hv hne

end

/-! ### Examples -/

namespace NetDemo

/-- Two blocks of height 9; validator 3 proposes the first. -/
def blockOf (h : Hash) : Nat × C := if h = [5] then (9, [5, 5]) else (9, [6, 6])

/-- The leader of a round. -/
def leaderN (k r : Nat) : Address := ((Authority.update nodes).getProposer .rotation k r).toOption.getD []

theorem leadersExist : LeadersExist lists .rotation leaderN := by
  intro k r
  have key : ∀ x, (Authority.update nodes).getProposer .rotation k r ≠ .error x := by
    intro x hx
    simp only [Authority.getProposer, rotationLeaderIndex] at hx
    split at hx
    · rename_i h0; exact absurd h0 (by decide +kernel)
    · simp only [bind, Except.bind] at hx
      split at hx
      · cases hx
      · rename_i hn
        rw [List.getElem?_eq_none_iff] at hn
        have hlen : (Authority.update nodes).address.length = 5 := by decide +kernel
        rw [hlen] at hn
        have := Nat.mod_lt ((k * leaderStride (5 % U32) + r) % U64) (show 0 < 5 % U32 by decide)
        have h4 : 5 % U32 = 5 := by decide
        omega
  unfold leaderN lists
  cases hg : (Authority.update nodes).getProposer .rotation k r with
  | ok l => rfl
  | error x => exact absurd hg (key x)

/-- `OrderStep`, computed. -/
def orderB (N : NetSys C) (a : Address) (x : NAct C) : Bool :=
  (match x with
  | .arm (.raw (.signedProposal sp)) _ _ => decide (blockOf sp.proposal.blockHash = (sp.proposal.height, sp.proposal.content))
  | .start _ e _ =>
    match e.walLoad with
    | some (some b) =>
      match decWalInfo (T := C) b with
      | .ok w => decide (w ∈ savedOf (N.nodes a).log)
      | .error _ => true
    | _ => true
  | _ => true) &&
  match (N.nodes a).act a x with
  | some n => n.st.chokes.qcs.all fun y => decide (y.1 < 2 ^ 64)
  | none => true

theorem orderB_sound {N : NetSys C} {a : UInt8} {d : D} (h : orderB N [a] (d.to a) = true) :
    OrderStep blockOf .rotation N [a] (d.to a) := by
  unfold orderB at h
  rw [Bool.and_eq_true] at h
  obtain ⟨h1, h2⟩ := h
  refine ⟨?_, ?_, ?_, ?_⟩
  · cases d <;> first | trivial | (simp [D.to, HashFixes, envN]; done) | skip
    refine ⟨fun sp hx => ?_, fun _ _ _ hx => by cases hx⟩
    cases hx
    exact of_decide_eq_true h1
  · cases d <;> first | trivial | skip
    intro b w hb hw
    simp only [D.to] at h1
    rw [hb] at h1
    simp only [hw] at h1
    exact of_decide_eq_true h1
  · cases d <;> trivial
  · intro n' hn r hr
    rw [hn] at h2
    have h2 := List.all_eq_true.1 h2
    unfold ChokeCollector.getQc at hr
    rw [Option.isSome_iff_exists] at hr
    obtain ⟨q, hq⟩ := hr
    exact of_decide_eq_true (h2 _ (AMap.mem_of_get? _ hq))

theorem orders_sound {l : List (UInt8 × List D)} (h : alongNetB stepB NetSys.new (sched l) = true)
    (h' : alongNetB orderB NetSys.new (sched l) = true) : OrderSchedule blockOf lists correct .rotation (sched l) := by
  have h1 := stepB_sound h
  have h2 : AlongNet (OrderStep blockOf .rotation) NetSys.new (sched l) := by
    refine alongNetB_sound _ _ (fun N y hy hb => ?_) h'
    obtain ⟨a, d, rfl⟩ := mem_sched hy
    exact orderB_sound hb
  exact alongNet_and (fun N a x h1 h2 hc => ⟨h1 hc, h2⟩) _ _ h1 h2

theorem works (a : UInt8) (w : Option (Option Bytes)) : Works (envN a w) := ⟨fun _ => rfl, fun _ => rfl⟩

/-- Validator 2 got the proposal and a prevote certificate; its State has not yet taken up the order to precommit. -/
def orderedVote : List (UInt8 × List D) := [(2, begin9 ++ dl (.aggregatedVote (Q 0 .prevote [5])) ++ [.smr])]

/-- C53_votes: a precommit order with a lock is next. -/
example : ∃ N q, NetSys.new.run (sched orderedVote) = some N ∧ OrderSchedule blockOf lists correct .rotation (sched orderedVote) ∧
    correct [2] = true ∧ (N.nodes [2]).down = false ∧ (N.nodes [2]).st.consensusPower = true ∧ (N.nodes [2]).st.stopped = false ∧
    (N.nodes [2]).stQ = .precommitVote 9 0 [5] (some 0) :: q ∧ 9 = (N.nodes [2]).st.height := by
  have hd : (match NetSys.new.run (sched orderedVote) with
      | some N => decide ((N.nodes [2]).down = false ∧ (N.nodes [2]).st.consensusPower = true ∧ (N.nodes [2]).st.stopped = false ∧
          (N.nodes [2]).stQ = [.precommitVote 9 0 [5] (some 0)] ∧ 9 = (N.nodes [2]).st.height)
      | none => false) = true := by decide +kernel
  split at hd
  · rename_i N hN
    obtain ⟨h1, h2, h3, h4, h5⟩ := of_decide_eq_true hd
    exact ⟨N, [], hN, orders_sound (by decide +kernel) (by decide +kernel), by decide, h1, h2, h3, h4, h5⟩
  · cases hd

/-- The same validator after the timeout of its precommit step. -/
def orderedChoke : List (UInt8 × List D) := [(2, lock9 ++ [.set, .set, .set, .expire 2, .fire 0, .smr])]

/-- C53_chokes: a choke order with a lock is next. -/
example : ∃ N q, NetSys.new.run (sched orderedChoke) = some N ∧ OrderSchedule blockOf lists correct .rotation (sched orderedChoke) ∧
    correct [2] = true ∧ (N.nodes [2]).down = false ∧ (N.nodes [2]).st.consensusPower = true ∧ (N.nodes [2]).st.stopped = false ∧
    (N.nodes [2]).stQ = .brake 9 0 (some 0) :: q ∧ 9 = (N.nodes [2]).st.height := by
  have hd : (match NetSys.new.run (sched orderedChoke) with
      | some N => decide ((N.nodes [2]).down = false ∧ (N.nodes [2]).st.consensusPower = true ∧ (N.nodes [2]).st.stopped = false ∧
          (N.nodes [2]).stQ = [.brake 9 0 (some 0)] ∧ 9 = (N.nodes [2]).st.height)
      | none => false) = true := by decide +kernel
  split at hd
  · rename_i N hN
    obtain ⟨h1, h2, h3, h4, h5⟩ := of_decide_eq_true hd
    exact ⟨N, [], hN, orders_sound (by decide +kernel) (by decide +kernel), by decide, h1, h2, h3, h4, h5⟩
  · cases hd

/-- Validator 2 precommits, restarts from its record, and gets a precommit certificate. -/
def orderedCommit : List (UInt8 × List D) :=
  [(2, lock9 ++ [.crash, .start (some recP)] ++ dl (.signedProposal propA) ++ [.smr, .cdone, .resp, .smr] ++
    dl (.aggregatedVote (Q 0 .precommit [5])) ++ [.smr])]

/-- C53_commits: a commit order is next. -/
example : ∃ N q, NetSys.new.run (sched orderedCommit) = some N ∧ OrderSchedule blockOf lists correct .rotation (sched orderedCommit) ∧
    correct [2] = true ∧ (N.nodes [2]).down = false ∧ (N.nodes [2]).st.consensusPower = true ∧ (N.nodes [2]).st.stopped = false ∧
    (N.nodes [2]).stQ = .commit [5] :: q ∧ (blockOf [5]).1 = (N.nodes [2]).st.height := by
  have hd : (match NetSys.new.run (sched orderedCommit) with
      | some N => decide ((N.nodes [2]).down = false ∧ (N.nodes [2]).st.consensusPower = true ∧ (N.nodes [2]).st.stopped = false ∧
          (N.nodes [2]).stQ = [.commit [5]] ∧ (blockOf [5]).1 = (N.nodes [2]).st.height)
      | none => false) = true := by decide +kernel
  split at hd
  · rename_i N hN
    obtain ⟨h1, h2, h3, h4, h5⟩ := of_decide_eq_true hd
    exact ⟨N, [], hN, orders_sound (by decide +kernel) (by decide +kernel), by decide, h1, h2, h3, h4, h5⟩
  · cases hd

/-- Validator 2 locks a block in round 0; a choke and three rounds without a proposal lead to round 4, which it leads. -/
def orderedRound : List (UInt8 × List D) :=
  [(2, lock9 ++ [.set, .set, .set, .expire 2, .fire 0, .smr, .event none] ++
    dl (.signedChoke (StDemo.choke 3 9 0 (.precommitQC mockInitQc))) ++ dl (.signedChoke (StDemo.choke 4 9 0 (.precommitQC mockInitQc))) ++
    dl (.signedChoke (StDemo.choke 5 9 0 (.precommitQC mockInitQc))) ++ [.smr, .event none, .set, .set] ++
    emptyRound 1 3 ++ emptyRound 2 4 ++ (emptyRound 3 5).take 13)]

/-- C53_enters: the order to enter round 4, locked in round 0, is next; the node is the leader. -/
example : ∃ N fr ni nc q, NetSys.new.run (sched orderedRound) = some N ∧
    OrderSchedule blockOf lists correct .rotation (sched orderedRound) ∧
    correct [2] = true ∧ (N.nodes [2]).down = false ∧ (N.nodes [2]).st.consensusPower = true ∧ (N.nodes [2]).st.stopped = false ∧
    (N.nodes [2]).stQ = .newRoundInfo 9 4 (some 0) (some [5]) fr ni nc :: q ∧ 9 = (N.nodes [2]).st.height ∧ leaderN 9 4 = [2] := by
  have hd : (match NetSys.new.run (sched orderedRound) with
      | some N => decide ((N.nodes [2]).down = false ∧ (N.nodes [2]).st.consensusPower = true ∧ (N.nodes [2]).st.stopped = false ∧
          9 = (N.nodes [2]).st.height) && (match (N.nodes [2]).stQ with
          | .newRoundInfo k r lr lp _ _ _ :: _ => decide (k = 9 ∧ r = 4 ∧ lr = some 0 ∧ lp = some [5])
          | _ => false)
      | none => false) = true := by decide +kernel
  split at hd
  · rename_i N hN
    rw [Bool.and_eq_true] at hd
    obtain ⟨h1, h2, h3, h5⟩ := of_decide_eq_true hd.1
    have hd2 := hd.2
    split at hd2
    · rename_i k r lr lp fr ni nc q hq
      obtain ⟨rfl, rfl, rfl, rfl⟩ := of_decide_eq_true hd2
      exact ⟨N, fr, ni, nc, q, hN, orders_sound (by decide +kernel) (by decide +kernel), by decide, h1, h2, h3, hq, h5, by decide +kernel⟩
    · cases hd2
  · cases hd

/-- **C53 is false for the leader's address.** A node that starts with an empty storage at a height above 0 does not look up the leader
of round 0: it sends its vote to the empty address, although the leader exists. -/
theorem C53_false_after_lost_wal : ∃ (as : List (Address × NAct C)) (N : NetSys C) (sv : SignedVote),
    NetSys.new.run as = some N ∧ FewFaulty lists correct ∧ OrderSchedule blockOf lists correct .rotation as ∧ correct [1] = true ∧
    .transmit [] (.signedVote sv) ∈ (N.nodes [1]).log ∧ sv.vote = ⟨9, 0, .prevote, [5]⟩ ∧ leaderN 9 0 = [3] := by
  have hd : (match NetSys.new.run (sched [(1, begin9)]) with
      | some N => (N.nodes [1]).log.any fun y => match y with
        | .transmit t (.signedVote sv) => decide (t = [] ∧ sv.vote = ⟨9, 0, .prevote, [5]⟩)
        | _ => false
      | none => false) = true := by decide +kernel
  split at hd
  · rename_i N hN
    obtain ⟨y, hy, hy'⟩ := List.any_eq_true.1 hd
    split at hy'
    · rename_i t sv
      obtain ⟨rfl, hv⟩ := of_decide_eq_true hy'
      exact ⟨_, N, sv, hN, fewFaulty, orders_sound (by decide +kernel) (by decide +kernel), by decide, hy, hv, by decide +kernel⟩
    · cases hy'
  · cases hd

end NetDemo

end Overlord
