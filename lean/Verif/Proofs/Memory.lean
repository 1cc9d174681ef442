import Verif.Proofs.Store
import Verif.Proofs.Early
import Verif.Proofs.Outcomes
import Verif.Props.State2
import Verif.Spec.Memory
import Mathlib.Data.Finset.Card
import Mathlib.Data.Finset.Prod
import Mathlib.Data.Finset.Image
import Mathlib.Order.Interval.Finset.Nat
import Mathlib.Tactic.Ring

/-! What a node holds in memory. -/

set_option linter.unusedSimpArgs false
set_option linter.unusedVariables false
set_option linter.unusedSectionVars false

namespace Overlord
namespace Mem
open M Spec

variable {T : Type} [ContentCodec T] [DecidableEq T]

/-- Votes that may be held. -/
def Pv (U : List Address) (B h0 : Nat) (sv : SignedVote) : Prop :=
  (h0 - 1 ≤ sv.vote.height ∧ sv.vote.height ≤ h0 + 5) ∧ sv.vote.round ≤ B + 10 ∧ sv.voter ∈ U

/-- Proposals that may be held. -/
def Pp (B h0 : Nat) (sp : SignedProposal T) : Prop :=
  (h0 - 1 ≤ sp.proposal.height ∧ sp.proposal.height ≤ h0 + 5) ∧ sp.proposal.round ≤ B + 10

structure Inv (U : List Address) (B h0 : Nat) (s : State T) : Prop where
  store : Store (Pp B h0) (Pv U B h0) (fun _ => True) s
  low : h0 ≤ s.height
  power : s.consensusPower = true → h0 = s.height
  round : s.round ≤ B
  lists : ∀ a, s.authority.contains a = true → a ∈ U
  self : s.address ∈ U

/-- Inputs on which votes or proposals may be stored. -/
def Storing : Input T → Prop
  | .verified (.signedVote _) => True
  | .verified (.signedProposal _) => True
  | .event (.newRoundInfo ..) => True
  | .event (.prevoteVote ..) => True
  | .event (.precommitVote ..) => True
  | _ => False

theorem window {s : State T} {h r : Nat} (hf : s.filterMessage h r = false) {B : Nat} (hr : s.round ≤ B) :
    (s.height - 1 ≤ h ∧ h ≤ s.height + 5) ∧ r ≤ B + 10 := by
  unfold State.filterMessage FUTURE_HEIGHT_GAP FUTURE_ROUND_GAP at hf
  have h1 := Nat.mod_le (s.height + 5) U64
  have h2 := Nat.mod_le (s.round + 10) U64
  split at hf
  · cases hf
  · split at hf
    · cases hf
    · split at hf
      · cases hf
      · omega

theorem mem_flush_votes {sh : Shuffle} {c : VoteCollector} {k : Nat} {p : Nat × VoteRoundCollector}
    (h : p ∈ ((c.flush (k - 1)).getHeightVotes sh k).2) : p ∈ c ∧ k - 1 ≤ p.1 := by
  have key : p ∈ c.flush (k - 1) := by
    unfold VoteCollector.getHeightVotes at h
    split at h
    · exact List.mem_of_mem_filter h
    · exact h
  have := List.mem_filter.1 key
  exact ⟨this.1, of_decide_eq_true this.2⟩

theorem mem_flush_proposals {sh : Shuffle} {c : ProposalCollector T} {k : Nat} {p : Nat × AMap Nat (SignedProposal T)}
    (h : p ∈ ((c.flush (k - 1)).getHeightProposals sh k).2) : p ∈ c ∧ k - 1 ≤ p.1 := by
  have key : p ∈ c.flush (k - 1) := by
    unfold ProposalCollector.getHeightProposals at h
    split at h
    · exact List.mem_of_mem_filter h
    · exact h
  have := List.mem_filter.1 key
  exact ⟨this.1, of_decide_eq_true this.2⟩

/-- A new height: what is older than the height before it is gone. -/
theorem adopted_store {U : List Address} {B h0 : Nat} {s : State T} {sh : Shuffle} {status : Status}
    (h : Store (Pp B h0) (Pv U B h0) (fun _ => True) s) (hl : h0 ≤ status.height) :
    Store (Pp B status.height) (Pv U B status.height) (fun _ => True) (s.adopted sh status) := by
  refine ⟨fun p hp q hq => ?_, fun p hp q hq ty => ?_, fun p hp => ?_, fun p hp => ?_⟩
  · obtain ⟨h1, h2⟩ := mem_flush_proposals hp
    obtain ⟨k1, k2, ⟨k3, k4⟩, k5⟩ := h.props p h1 q hq
    exact ⟨k1, k2, ⟨by omega, by omega⟩, k5⟩
  · obtain ⟨h1, h2⟩ := mem_flush_votes hp
    have hk := h.votes.pool p h1 q hq ty
    refine ⟨hk.inv, fun x hx => ?_⟩
    obtain ⟨k1, k2, k3, k4, ⟨k5, k6⟩, k7⟩ := hk.all x hx
    exact ⟨k1, k2, k3, k4, ⟨by omega, by omega⟩, k7⟩
  · exact h.votes.qc p (mem_flush_votes hp).1
  · exact h.votes.hash p (mem_flush_votes hp).1

/-- The node neither starts nor moves. -/
def Calm (i : Input T) : Prop := i ≠ .start ∧ (∀ st, i ≠ .verified (.richStatus st)) ∧ ∀ h, i ≠ .event (.commit h)

theorem Inv.micro {U : List Address} {B h0 : Nat} {e : Env T} {i : Input T} (hi : Calm i) (hr : RoundsWithin B e i)
    {s : State T} {eff : List (Effect T)} {s' : State T} (h : Inv U B h0 s)
    (hp : Storing i → s.consensusPower = true) (hm : Micro e i s eff s') :
    Inv U B h0 s' ∧ (Storing i → s'.consensusPower = true) := by
  have own : ∀ sp, ProposalInput i s sp → s.filterMessage sp.proposal.height sp.proposal.round = false → Pp B h0 sp := by
    intro sp hsp hf
    have hs : Storing i := by
      rcases hsp with rfl | ⟨⟨r, lr, lp, f, k, ni, nc, rfl⟩, _⟩ <;> trivial
    have := window hf h.round
    rw [← h.power (hp hs)] at this
    exact this
  have mv : ∀ st : Status, ¬ (i = .verified (.richStatus st) ∨ i = .start ∨ ∃ h, i = .event (.commit h)) := by
    rintro st (h | h | ⟨k, h⟩)
    · exact hi.2.1 _ h
    · exact hi.1 h
    · exact hi.2.2 _ h
  cases hm with
  | recvQc qc hq => exact ⟨{ h with store := ⟨h.store.props, h.store.votes.setQc trivial⟩ }, hp⟩
  | genQc ty hash vs sig => exact ⟨{ h with store := ⟨h.store.props, h.store.votes.setQc trivial⟩ }, hp⟩
  | recvVote sv hv hf ha =>
    have hs : Storing i := by rw [hv]; trivial
    have := window hf h.round
    rw [← h.power (hp hs)] at this
    exact ⟨{ h with store := ⟨h.store.props, h.store.votes.insertVote ⟨this.1, this.2, h.lists _ ha⟩⟩ }, hp⟩
  | castVote ty hash lr lock sv hsv hv hlo hvv ha =>
    have hs : Storing i := by
      obtain ⟨k, r, rfl⟩ := hv
      cases ty <;> trivial
    refine ⟨{ h with store := ⟨h.store.props, ?_⟩ }, hp⟩
    dsimp only
    split
    · have := h.store.votes.insertVote (sv := sv) (by
        refine ⟨?_, ?_, by rw [ha]; exact h.self⟩
        · rw [hvv, h.power (hp hs)]; exact ⟨Nat.sub_le _ _, Nat.le_add_right _ _⟩
        · rw [hvv]; exact Nat.le_trans h.round (Nat.le_add_right _ _))
      rw [hvv, ha] at this; exact this
    · exact h.store.votes
  | storeProposal sp ps hsp _ _ hf _ hs => exact ⟨{ h with store := ⟨h.store.props.insert hs rfl rfl (own sp hsp hf), h.store.votes⟩ }, hp⟩
  | acceptProposal sp ps hsp _ _ hh hr' _ hs =>
    have hst : Storing i := by
      rcases hsp with rfl | ⟨⟨r, lr, lp, f, k, ni, nc, rfl⟩, _⟩ <;> trivial
    refine ⟨{ h with store := ⟨h.store.props.insert hs hh hr' ⟨?_, ?_⟩, h.store.votes⟩ }, hp⟩
    · rw [hh, h.power (hp hst)]; exact ⟨Nat.sub_le _ _, Nat.le_add_right _ _⟩
    · rw [hr']; exact Nat.le_trans h.round (Nat.le_add_right _ _)
  | enterRound round lr lp f hn =>
    obtain ⟨k, ni, nc, hn⟩ := hn
    exact ⟨{ h with store := ⟨h.store.props, h.store.votes⟩, round := hr.1 _ _ _ _ _ _ _ hn }, hp⟩
  | commit hash content qc _ hc =>
    rcases hc with hc | hc
    · exact absurd hc (hi.2.2 _)
    · exact absurd hc hi.1
  | move st hi' => exact absurd hi' (mv st)
  | moveLost st hsv hi' => exact absurd hi' (mv st)
  | adopt st _ hi' => exact absurd hi' (mv st)
  | restorePos w b h' => exact absurd h' hi.1
  | restoreLock w b lock h' => exact absurd h' hi.1
  | _ => exact ⟨{ h with store := ⟨h.store.props, h.store.votes⟩ }, hp⟩

theorem lists_update {U : List Address} {st : Status} (h : ∀ a ∈ st.authorityList.map Node.address, a ∈ U) :
    ∀ a, (Authority.update st.authorityList).contains a = true → a ∈ U := fun a ha => h a ((update_contains _ _).1 ha)

theorem Inv.moves {U : List Address} {B h0 : Nat} {e : Env T} {s : State T} (h : Inv U B h0 s) (hw : Stores e) {st : Status}
    (hl : ∀ a ∈ st.authorityList.map Node.address, a ∈ U) {w : World T} (hm : Moves e s st w) : ∃ h1, Inv U B h1 w.st := by
  cases hm with
  | stay => exact ⟨h0, h⟩
  | away hh hp =>
    refine ⟨h0, ⟨h.store.props, h.store.votes⟩, Nat.le_trans h.low (Nat.le_of_lt hh), ?_, Nat.zero_le _, h.lists, h.self⟩
    intro hc
    simp only [State.moved, hp] at hc
    cases hc
  | lost _ _ hs => obtain ⟨b, _, hb⟩ := hs; rw [hw b] at hb; cases hb
  | adopt hh hp =>
    exact ⟨st.height, adopted_store h.store (Nat.le_trans h.low (Nat.le_of_lt hh)), Nat.le_refl _, fun _ => rfl, Nat.zero_le _, lists_update hl, h.self⟩

theorem Inv.commit {U : List Address} {B h0 : Nat} {e : Env T} {s : State T} (h : Inv U B h0 s) (hw : Stores e)
    (hl : ∀ h c st, e.commit h c = some st → ∀ a ∈ st.authorityList.map Node.address, a ∈ U) {hash : Hash} {w : World T} (hm : CommitOut e s hash w) :
    ∃ h1, Inv U B h1 w.st := by
  cases hm with
  | none => exact ⟨h0, h⟩
  | lost => exact ⟨h0, h⟩
  | failed => exact ⟨h0, h⟩
  | stuck _ _ st _ _ _ _ hc => exact ⟨h0, { h with store := ⟨h.store.props, h.store.votes⟩, lists := lists_update (hl _ _ _ hc) }⟩
  | done _ _ st w _ _ _ hc hm =>
    exact Inv.moves (w := w) (s := { s with authority := Authority.update st.authorityList })
      { h with store := ⟨h.store.props, h.store.votes⟩, lists := lists_update (hl _ _ _ hc) } hw (hl _ _ _ hc) hm

/-- One input other than the start. -/
theorem Inv.next {U : List Address} {B h0 : Nat} {e : Env T} {i : Input T} (hi : i ≠ .start) (hl : ListsWithin U e i) (hr : RoundsWithin B e i)
    (hw : Stores e) {s : State T} (h : Inv U B h0 s) : ∃ h1, Inv U B h1 (next e i s) := by
  by_cases hc : Calm i
  · refine ⟨h0, ?_⟩
    by_cases hp : Storing i → s.consensusPower = true
    · exact (arm_state_inv (P := fun s => Inv U B h0 s ∧ (Storing i → s.consensusPower = true)) ⟨h, hp⟩
        (fun s eff s' hs hm => hs.1.micro hc hr hs.2 hm)).1
    · have : s.consensusPower = false := by
        cases h' : s.consensusPower with
        | false => rfl
        | true => exact absurd (fun _ => h') hp
      rw [(C35_silent e i s this hc.2.1).1]
      exact h
  · by_cases h1 : ∃ st, i = .verified (.richStatus st)
    · obtain ⟨st, rfl⟩ := h1
      exact h.moves hw (hl.1 _ rfl) (status_moves e s st)
    · by_cases h2 : ∃ k, i = .event (.commit k)
      · obtain ⟨k, rfl⟩ := h2
        by_cases h' : s.consensusPower = false ∨ s.stopped = true
        · exact ⟨h0, by show Inv U B h0 (runArm (.event (.commit k)) e ⟨s, []⟩).2.st; rw [event_idle h']; exact h⟩
        · simp only [not_or, Bool.not_eq_false, Bool.not_eq_true] at h'
          have o := event_out e s (.commit k) h'.1 h'.2
          show ∃ h1, Inv U B h1 (runArm (.event (.commit k)) e ⟨s, []⟩).2.st
          generalize (runArm (.event (.commit k)) e ⟨s, []⟩).2 = w at *
          cases o with
          | commit _ o => exact h.commit hw hl.2 o
      · exact absurd ⟨hi, fun st hst => h1 ⟨st, hst⟩, fun k hk => h2 ⟨k, hk⟩⟩ hc

theorem Inv.none {U : List Address} {B h0 : Nat} {s : State T} (hs : Store (fun _ => False) (fun _ => False) (fun _ => True) s)
    (hh : h0 = s.height) (hr : s.round ≤ B) (hl : ∀ a, s.authority.contains a = true → a ∈ U) (ha : s.address ∈ U) : Inv U B h0 s :=
  ⟨hs.mono (fun _ h => h.elim) (fun _ h => h.elim) (fun _ h => h), Nat.le_of_eq hh, fun _ => hh, hr, hl, ha⟩

/-- The start of a node. -/
theorem Inv.start {U : List Address} {B : Nat} {e : Env T} (hl : ListsWithin U e (.start : Input T)) (hr : RoundsWithin B e (.start : Input T))
    (hw : Stores e) {s : State T} (hs : Store (fun _ => False) (fun _ => False) (fun _ => True) s) (h0 : s.round ≤ B)
    (ha : ∀ a, s.authority.contains a = true → a ∈ U) (hu : s.address ∈ U) : ∃ h1, Inv U B h1 (Spec.next e .start s) := by
  have rs : ∀ rec p, Store (fun _ => False) (fun _ => False) (fun _ => True) (s.restored rec p) ∧ (s.restored rec p).height = rec.height ∧
      (s.restored rec p).round = rec.round ∧ (s.restored rec p).authority = s.authority ∧ (s.restored rec p).address = s.address := by
    intro rec p
    unfold State.restored
    cases rec.lock with
    | none => exact ⟨⟨hs.props, hs.votes⟩, rfl, rfl, rfl, rfl⟩
    | some lock => exact ⟨⟨hs.props, hs.votes.setQc trivial⟩, rfl, rfl, rfl, rfl⟩
  have ri : ∀ b rec p, e.walLoad = some (some b) → decWalInfo (T := T) b = .ok rec → Inv U B rec.height (s.restored rec p) := by
    intro b rec p h1 h2
    obtain ⟨k1, k2, k3, k4, k5⟩ := rs rec p
    exact .none k1 k2.symm (by rw [k3]; exact hr.2 b rec rfl h1 h2) (by rw [k4]; exact ha) (by rw [k5]; exact hu)
  have o := start_out e s
  show ∃ h1, Inv U B h1 (runArm .start e ⟨s, []⟩).2.st
  generalize (runArm .start e ⟨s, []⟩).2 = w at *
  cases o with
  | idle hw' => subst hw'; exact ⟨_, .none hs rfl h0 ha hu⟩
  | fresh _ _ _ hw' => subst hw'; exact ⟨_, .none hs rfl h0 ha hu⟩
  | noLeader b rec x _ h1 h2 _ hw' =>
    subst hw'
    exact ⟨rec.height, .none ⟨hs.props, hs.votes⟩ rfl (hr.2 b rec rfl h1 h2) ha hu⟩
  | noLock b rec p _ h1 h2 _ _ _ hw' => subst hw'; exact ⟨_, ri b rec p h1 h2⟩
  | resume b rec p _ h1 h2 _ _ _ hw' => subst hw'; exact ⟨_, ri b rec p h1 h2⟩
  | commit b rec p lock _ h1 h2 _ _ _ o => exact (ri b rec p h1 h2).commit hw hl.2 o
  | brake b rec p _ h1 h2 _ _ w1 o hw' =>
    refine ⟨rec.height, ?_⟩
    have hk : Inv U B rec.height w1.st := by
      have := ri b rec p h1 h2
      obtain ⟨k1, _, _, k2, k3, _⟩ := o.keep
      refine ⟨⟨by rw [k3]; exact this.store.props, by rw [k1]; exact this.store.votes⟩, by rw [o.same.height]; exact this.low, ?_, by rw [o.round]; exact this.round,
        by rw [k2]; exact this.lists, by rw [o.same.address]; exact this.self⟩
      rw [o.same.height, o.same.power]
      exact this.power
    rcases hw' with rfl | rfl <;> exact hk

/-- Whole histories of a node, from its start. -/
theorem inv {U : List Address} {B : Nat} {addr : Address} {h0 iv : Nat} {l : List Node} {e0 : Env T} {ins : List (Env T × Input T)} {s : State T}
    (hu : addr ∈ U) (hl : ∀ a ∈ l.map Node.address, a ∈ U)
    (hx : ∀ x ∈ (e0, .start) :: ins, ListsWithin U x.1 x.2 ∧ RoundsWithin B x.1 x.2 ∧ Stores x.1) (hi : ∀ x ∈ ins, x.2 ≠ .start)
    (hs : (State.new addr h0 iv l).after ((e0, .start) :: ins) = some s) : ∃ h1, Inv U B h1 s := by
  have h1 := hx _ (List.mem_cons_self ..)
  have st : ∃ h1, Inv U B h1 (next e0 (.start : Input T) (State.new addr h0 iv l)) :=
    Inv.start h1.1 h1.2.1 h1.2.2 (.new ..) (Nat.zero_le _) (fun a ha => hl a ((update_contains _ _).1 ha)) hu
  have hs' : (next e0 (.start : Input T) (State.new addr h0 iv l)).after ins = some s := by
    unfold State.after at hs
    split at hs
    · rename_i w hw
      unfold next
      rw [hw]
      exact hs
    · cases hs
  have := after_inv (s0 := next e0 (.start : Input T) (State.new addr h0 iv l))
    (P := fun is s => (∀ x ∈ is, (ListsWithin U x.1 x.2 ∧ RoundsWithin B x.1 x.2 ∧ Stores x.1) ∧ x.2 ≠ .start) → ∃ h1, Inv U B h1 s)
    (fun _ => st) (fun is s e i ih hall => by
      obtain ⟨h1, hk⟩ := ih fun x hx => hall x (List.mem_append_left _ hx)
      obtain ⟨⟨g1, g2, g3⟩, g4⟩ := hall (e, i) (by simp)
      exact hk.next g4 g1 g2 g3) hs'
  exact this fun x hx' => ⟨hx x (List.mem_cons_of_mem _ hx'), hi x hx'⟩

theorem holds_vote {U : List Address} {B h0 : Nat} {s : State T} (h : Inv U B h0 s) {x : VoteSlot} (hx : HoldsVote s x) :
    (h0 - 1 ≤ x.height ∧ x.height ≤ h0 + 5) ∧ x.round ≤ B + 10 ∧ x.voter ∈ U := by
  obtain ⟨sv, hs⟩ := hx
  unfold keptVote at hs
  obtain ⟨vs, h1, h2⟩ := Option.bind_eq_some_iff.1 hs
  have hp : vs = poolD s.votes x.height x.round x.voteType := by unfold poolD; rw [h1]; rfl
  have := (h.store.votes.poolD x.height x.round x.voteType).all (x.voter, sv) (by rw [← hp]; exact AMap.mem_of_get? _ h2)
  obtain ⟨k1, k2, k3, k4, k5, k6, k7⟩ := this
  exact ⟨by rw [← k1]; exact k5, by rw [← k2]; exact k6, by rw [k4] at k7; exact k7⟩

theorem holds_proposal {U : List Address} {B h0 : Nat} {s : State T} (h : Inv U B h0 s) {x : Nat × Nat} (hx : HoldsProposal s x) :
    (h0 - 1 ≤ x.1 ∧ x.1 ≤ h0 + 5) ∧ x.2 ≤ B + 10 := by
  obtain ⟨sp, hs⟩ := hx
  obtain ⟨k1, k2, k3, k4⟩ := h.store.props.get hs
  exact ⟨by rw [← k1]; exact k3, by rw [← k2]; exact k4⟩

theorem count_votes {U : List Address} {h0 B : Nat} {l : List VoteSlot} (hn : l.Nodup)
    (hl : ∀ x ∈ l, (h0 - 1 ≤ x.height ∧ x.height ≤ h0 + 5) ∧ x.round ≤ B + 10 ∧ x.voter ∈ U) : l.length ≤ 14 * (B + 11) * U.length := by
  let f : VoteSlot → Nat × Nat × VoteType × Address := fun x => (x.height, x.round, x.voteType, x.voter)
  have hf : Function.Injective f := by
    rintro ⟨a, b, c, d⟩ ⟨a', b', c', d'⟩ h
    simp only [f, Prod.mk.injEq] at h
    obtain ⟨rfl, rfl, rfl, rfl⟩ := h
    rfl
  have h1 : (l.map f).toFinset ⊆ Finset.Icc (h0 - 1) (h0 + 5) ×ˢ Finset.range (B + 11) ×ˢ ({.prevote, .precommit} : Finset VoteType) ×ˢ U.toFinset := by
    intro y hy
    obtain ⟨x, hx, rfl⟩ := List.mem_map.1 (List.mem_toFinset.1 hy)
    obtain ⟨k1, k2, k3⟩ := hl x hx
    simp only [f, Finset.mem_product, Finset.mem_Icc, Finset.mem_range, List.mem_toFinset]
    refine ⟨k1, by omega, ?_, k3⟩
    cases x.voteType <;> simp
  have h2 := Finset.card_le_card h1
  rw [List.toFinset_card_of_nodup (hn.map hf), List.length_map, Finset.card_product, Finset.card_product, Finset.card_product, Nat.card_Icc, Finset.card_range] at h2
  have h3 : ({.prevote, .precommit} : Finset VoteType).card = 2 := rfl
  rw [h3] at h2
  have h4 := U.toFinset_card_le
  have h5 : h0 + 5 + 1 - (h0 - 1) ≤ 7 := by omega
  calc l.length ≤ _ := h2
    _ ≤ 7 * ((B + 11) * (2 * U.length)) := Nat.mul_le_mul h5 (Nat.mul_le_mul_left _ (Nat.mul_le_mul_left _ h4))
    _ = 14 * (B + 11) * U.length := by ring

theorem count_proposals {h0 B : Nat} {l : List (Nat × Nat)} (hn : l.Nodup)
    (hl : ∀ x ∈ l, (h0 - 1 ≤ x.1 ∧ x.1 ≤ h0 + 5) ∧ x.2 ≤ B + 10) : l.length ≤ 7 * (B + 11) := by
  have h1 : l.toFinset ⊆ Finset.Icc (h0 - 1) (h0 + 5) ×ˢ Finset.range (B + 11) := by
    intro x hy
    obtain ⟨k1, k2⟩ := hl x (List.mem_toFinset.1 hy)
    simp only [Finset.mem_product, Finset.mem_Icc, Finset.mem_range]
    exact ⟨k1, by omega⟩
  have h2 := Finset.card_le_card h1
  rw [List.toFinset_card_of_nodup hn, Finset.card_product, Nat.card_Icc, Finset.card_range] at h2
  have h5 : h0 + 5 + 1 - (h0 - 1) ≤ 7 := by omega
  exact Nat.le_trans h2 (Nat.mul_le_mul_right _ h5)

end Mem
end Overlord
