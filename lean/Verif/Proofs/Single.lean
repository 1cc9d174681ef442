import Verif.Proofs.NodeStart
import Verif.Proofs.Origin
import Verif.Spec.Single

/-! The proposals a node broadcasts in its whole life are strictly ordered (used for C70). -/

set_option linter.unusedSimpArgs false
set_option linter.unusedVariables false
set_option linter.unusedSectionVars false
set_option linter.unnecessarySeqFocus false

namespace Overlord
open M Spec

variable {T : Type} [ContentCodec T] [DecidableEq T]

namespace Single

/-- Height and round. -/
abbrev Slot := Nat × Nat

def lt (a b : Slot) : Prop := a.1 < b.1 ∨ (a.1 = b.1 ∧ a.2 < b.2)
def le (a b : Slot) : Prop := a.1 < b.1 ∨ (a.1 = b.1 ∧ a.2 ≤ b.2)

theorem le_trans {a b c : Slot} (h : le a b) (h' : le b c) : le a c := by unfold le at *; omega
theorem le_of_lt {a b : Slot} (h : lt a b) : le a b := by unfold lt at h; unfold le; omega
theorem le_refl (a : Slot) : le a a := by unfold le; omega

/-- The slots of the proposals sent. -/
def slotsOf (l : List (Effect T)) : List Slot := (proposalsOf l).map fun p => (p.height, p.round)

theorem slotsOf_append (l l' : List (Effect T)) : slotsOf (l ++ l') = slotsOf l ++ slotsOf l' := by
  simp [slotsOf, proposalsOf]

/-- Nothing of it is a proposal. -/
def NoProp (x : Effect T) : Prop :=
  (∀ sp, x ≠ .broadcast (.signedProposal sp)) ∧ ∀ p sp, x ≠ .transmit p (.signedProposal sp)

theorem slots_nil {l : List (Effect T)} (h : ∀ x ∈ l, NoProp x) : slotsOf l = [] := by
  simp only [slotsOf, List.map_eq_nil_iff]
  refine List.filterMap_eq_nil_iff.2 fun x hx => ?_
  obtain ⟨h1, h2⟩ := h x hx
  split
  · exact absurd rfl (h1 _)
  · exact absurd rfl (h2 _ _)
  · rfl

theorem micro_noProp {e : Env T} {i : Input T} {s s' : State T} {eff : List (Effect T)} (hi : ∀ r lr lp f, ¬ NewRoundInput i r lr lp f)
    (hm : Micro e i s eff s') : ∀ x ∈ eff, NoProp x := by
  intro x hx
  cases hm with
  | askBlock h => obtain ⟨r, lp, f, h⟩ := h; exact absurd h (hi _ _ _ _)
  | ownBlock hash block h => obtain ⟨r, lr, lp, f, h⟩ := h; exact absurd h (hi _ _ _ _)
  | propose sp r lr lp f h => exact absurd h (hi _ _ _ _)
  | enterRound r lr lp f h => exact absurd h (hi _ _ _ _)
  | castVote =>
    simp only [List.mem_cons, List.not_mem_nil, or_false] at hx
    rcases hx with rfl | rfl
    · exact ⟨by simp, by simp⟩
    · split <;> exact ⟨by simp, by simp⟩
  | _ =>
    (simp only [List.cons_append, List.mem_cons, List.mem_append, List.mem_map, List.not_mem_nil, or_false] at hx) <;>
    first
      | (cases hx; done)
      | (subst hx; exact ⟨by simp, by simp⟩)
      | (rcases hx with rfl | rfl <;> exact ⟨by simp, by simp⟩)
      | (rcases hx with rfl | ⟨m, _, rfl⟩ | rfl <;> exact ⟨by simp, by simp⟩)

theorem noProp_signedProposal {e : Env T} {s : State T} {l : List (Effect T)} {sp : SignedProposal T} :
    wp (handleSignedProposal sp) e ⟨s, l⟩ (fun _ w => ∃ l', w.log = l ++ l' ∧ slotsOf l' = [])
      (fun _ w => ∃ l', w.log = l ++ l' ∧ slotsOf l' = []) := by
  have key : ∀ w, Runs e (.verified (.signedProposal sp)) ⟨s, l⟩ w → ∃ l', w.log = l ++ l' ∧ slotsOf l' = [] := by
    intro w h
    induction h with
    | refl => exact ⟨[], by simp, rfl⟩
    | step h hm ih =>
      obtain ⟨l', h1, h2⟩ := ih
      refine ⟨l' ++ _, by rw [h1, List.append_assoc], ?_⟩
      rw [slotsOf_append, h2, slots_nil (micro_noProp (by rintro r lr lp f ⟨h, ni, nc, h'⟩; cases h') hm)]
      rfl
  exact wp_mono (walk_signedProposal .refl (.inl rfl)) (fun _ w h => key w h) (fun _ w h => key w h)

/-- At most one proposal, for this height and round, after a record was saved. -/
def OneLead (k r : Nat) (l : List (Effect T)) : Prop :=
  slotsOf l = [] ∨ ∃ l1 w l2, l = l1 ++ .saveWal w true :: l2 ∧ slotsOf l1 = [] ∧ slotsOf l2 = [(k, r)]

theorem one_newRound {e : Env T} {s : State T} {r : Nat} {lr : Option Nat} {lp : Option Hash} {f : FromWhere} :
    wp (handleNewRound r lr lp f) e ⟨s, []⟩ (fun _ w => OneLead s.height r w.log) (fun _ w => OneLead s.height r w.log) := by
  have key : ∀ l' : List (Effect T), slotsOf l' = [] →
      wp (do
        if lr.isSome ≠ lp.isSome then fail .proposalErr
        else
          setUpdateFrom f
          saveWalWithLockRound .propose lr
          if (← isProposer) = false then
            let s ← get
            match s.proposals.get s.height s.round with
            | .ok sp => handleSignedProposal sp
            | .error _ => pure ()
          else
            modify fun s => { s with isLeader := true }
            let (block, hash, polc) ← proposalParts lr lp
            modify fun s => { s with hashWithBlock :=
              match s.hashWithBlock.get? hash with
              | some _ => s.hashWithBlock
              | none => s.hashWithBlock.insert hash block }
            let s ← get
            let sp ← signProposal { height := s.height, round := s.round, content := block,
                                    blockHash := hash, lock := polc, proposer := s.address }
            broadcast (.signedProposal sp)
            emit (.trigger (stTrigger .proposal hash lr s.round s.height))
            checkBlock hash block) e ⟨{ s with round := r, isLeader := false }, l'⟩
        (fun _ w => OneLead s.height r w.log) (fun _ w => OneLead s.height r w.log) := by
    intro l' h
    rw [wp_ite]
    refine ⟨fun _ => .inl h, fun hs => ?_⟩
    rw [wp_bind]
    refine wp_setUpdateFrom (fun _ => .inl h) fun u hu => ?_
    rw [wp_bind]
    refine wp_saveWalLR (fun _ => .inl h) (fun lock b hl e1 e2 => .inl (by rw [slotsOf_append, h]; rfl)) (fun lock b hl e1 e2 => ?_)
    -- after the record
    have quiet : ∀ l2 : List (Effect T), slotsOf l2 = [] →
        OneLead s.height r (l' ++ [.saveWal (walRec ({ s with round := r, isLeader := false, updateFrom := u } : State T) .propose lock) true] ++ l2) :=
      fun l2 h2 => .inl (by rw [slotsOf_append, slotsOf_append, h, h2]; rfl)
    have one : ∀ l2 : List (Effect T), slotsOf l2 = [(s.height, r)] →
        OneLead s.height r (l' ++ [.saveWal (walRec ({ s with round := r, isLeader := false, updateFrom := u } : State T) .propose lock) true] ++ l2) :=
      fun l2 h2 => .inr ⟨l', _, l2, by rw [List.append_assoc]; rfl, h, h2⟩
    have quiet0 := by simpa using quiet [] rfl
    rw [wp_bind]
    refine wp_isProposer (fun _ => quiet0) fun p hp => ?_
    rw [wp_ite]
    refine ⟨fun hb => ?_, fun hb => ?_⟩
    · wps
      split
      · refine wp_mono noProp_signedProposal ?_ ?_ <;>
        · rintro _ w ⟨l2, h1, h2⟩
          rw [h1]; exact quiet _ h2
      · exact quiet0
    · wps
      unfold proposalParts
      cases lr with
      | none =>
        wps
        have h5 := quiet [.getBlock s.height (e.getBlock s.height)] rfl
        refine ⟨fun bh hbh => ?_, fun _ => h5⟩
        obtain ⟨block, hash⟩ := bh
        wps [signProposal, broadcast, checkBlock]
        refine ⟨fun b hb => ⟨fun sig hsig => ?_, fun _ => h5⟩, fun _ => h5⟩
        have := one [.getBlock s.height (e.getBlock s.height),
          .broadcast (.signedProposal ⟨sig, ⟨s.height, r, block, hash, none, s.address⟩⟩),
          .trigger (stTrigger .proposal hash none r s.height), .spawnCheck s.height r hash block] rfl
        simpa using this
      | some k =>
        wps
        refine ⟨fun hash hlp => ⟨fun b hget => ?_, fun _ => quiet0⟩, fun _ => quiet0⟩
        split
        · rename_i qc hq
          wps [signProposal, broadcast, checkBlock, hget]
          refine ⟨fun b' hb => ⟨fun sig hsig => ?_, fun _ => quiet0⟩, fun _ => quiet0⟩
          have := one [.broadcast (.signedProposal ⟨sig, ⟨s.height, r, b, hash, some ⟨k, qc⟩, s.address⟩⟩),
            .trigger (stTrigger .proposal hash (some k) r s.height), .spawnCheck s.height r hash b] rfl
          simpa using this
        · exact quiet0
  unfold handleNewRound
  rw [wp_bind, wp_get]
  by_cases hr : r = INIT_ROUND
  · have := key [] rfl
    simp only [hr, ne_eq, not_true_eq_false, if_false] at this ⊢
    rw [wp_bind, wp_modify]
    exact this
  · have := key [.reportViewChange s.height s.round (s.viewChangeReason s.round f)] rfl
    simp only [hr, ne_eq, not_false_eq_true, if_true, reportViewChange]
    rw [wp_bind, wp_bind, wp_get, wp_emit, wp_bind, wp_modify]
    exact this

theorem arm_slots {e : Env T} {s : State T} {i : Input T} (hi : ∀ r lr lp f, ¬ NewRoundInput i r lr lp f) :
    slotsOf (runArm i e ⟨s, []⟩).2.log = [] := by
  refine slots_nil fun x hx => ?_
  obtain ⟨s1, eff, s2, -, hm, hx⟩ := arm_effect (P := fun _ => True) trivial (fun _ _ _ _ _ => trivial) hx
  exact micro_noProp hi hm x hx

theorem arm_one {e : Env T} {s : State T} {k r lr lp f ni nc} (hp : s.consensusPower = true) (hs : s.stopped = false) :
    OneLead s.height r (runArm (.event (.newRoundInfo k r lr lp f ni nc)) e ⟨s, []⟩).2.log := by
  refine event_post (P := fun w => OneLead s.height r w.log) hp hs ?_
  unfold handleEvent
  wps
  exact wp_mono one_newRound (fun _ _ h => h) (fun _ _ h => ⟨fun _ => h, fun _ => h⟩)


/-! ## Proposals in order, each after its record -/

def recSlot (w : WalInfo T) : Slot := (w.height, w.round)

structure Ordered (l : List (Effect T)) : Prop where
  sorted : (slotsOf l).Pairwise lt
  saved : ∀ p ∈ slotsOf l, ∃ w, (savedOf l).getLast? = some w ∧ le p (recSlot w)

theorem savedOf_append (l l' : List (Effect T)) : savedOf (l ++ l') = savedOf l ++ savedOf l' := by simp [savedOf]

theorem take_sub {α β : Type} (g : α → Option β) (l : List α) (k : Nat) : ∀ x ∈ (l.take k).filterMap g, x ∈ l.filterMap g := by
  intro x hx
  obtain ⟨y, hy, h⟩ := List.mem_filterMap.1 hx
  exact List.mem_filterMap.2 ⟨y, List.mem_of_mem_take hy, h⟩

theorem cut_sub {α β : Type} (g : Effect α → Option β) (c : Option Nat) (l : List (Effect α)) :
    ∀ x ∈ (cutTo c l).filterMap g, x ∈ l.filterMap g := by
  cases c with
  | none => intro x hx; exact hx
  | some k => exact take_sub g l k

/-- More is done, without a proposal. -/
theorem ordered_quiet {L l : List (Effect T)} (h : Ordered L) (h1 : slotsOf l = [])
    (h2 : ∀ w ∈ savedOf l, ∀ p ∈ slotsOf L, le p (recSlot w)) (c : Option Nat) : Ordered (L ++ cutTo c l) := by
  have e1 : slotsOf (cutTo c l) = [] := by
    have e : proposalsOf l = [] := by simpa [slotsOf] using h1
    have : proposalsOf (cutTo c l) = [] := by
      refine List.eq_nil_iff_forall_not_mem.2 fun x hx => ?_
      have := cut_sub _ c l x hx
      unfold proposalsOf at e
      rw [e] at this; cases this
    simp [slotsOf, this]
  have e2 : slotsOf (L ++ cutTo c l) = slotsOf L := by rw [slotsOf_append, e1, List.append_nil]
  refine ⟨by rw [e2]; exact h.sorted, ?_⟩
  rw [e2, savedOf_append]
  intro p hp
  cases hs : (savedOf (cutTo c l)).getLast? with
  | none =>
    rw [List.getLast?_eq_none_iff] at hs
    rw [hs, List.append_nil]; exact h.saved p hp
  | some w =>
    refine ⟨w, by rw [List.getLast?_append, hs]; rfl, h2 w (cut_sub _ c l w (List.mem_of_getLast? hs)) p hp⟩

/-- More is done, with at most one proposal, for a later slot. -/
theorem ordered_lead {L l : List (Effect T)} {k r : Nat} (h : Ordered L) (h1 : OneLead k r l)
    (h2 : ∀ w ∈ savedOf l, recSlot w = (k, r)) (h3 : ∀ p ∈ slotsOf L, lt p (k, r)) (c : Option Nat) : Ordered (L ++ cutTo c l) := by
  rcases h1 with h1 | ⟨l1, w, l2, h4, h5, h6⟩
  · exact ordered_quiet h h1 (fun w hw p hp => by rw [h2 w hw]; exact le_of_lt (h3 p hp)) c
  -- the part that takes place
  have hpre : slotsOf (cutTo c l) = [] ∨ (slotsOf (cutTo c l) = [(k, r)] ∧ ∃ x, (savedOf (cutTo c l)).getLast? = some x) := by
    have whole : slotsOf l = [(k, r)] ∧ w ∈ savedOf l := by
      rw [h4]
      refine ⟨by rw [slotsOf_append, h5]; exact h6, by rw [savedOf_append]; simp [savedOf]⟩
    have last : ∀ {l' : List (Effect T)}, w ∈ savedOf l' → ∃ x, (savedOf l').getLast? = some x := by
      intro l' hw
      cases hs : (savedOf l').getLast? with
      | none => rw [List.getLast?_eq_none_iff] at hs; rw [hs] at hw; cases hw
      | some x => exact ⟨x, rfl⟩
    cases c with
    | none => exact .inr ⟨whole.1, last whole.2⟩
    | some j =>
      show slotsOf (l.take j) = [] ∨ (slotsOf (l.take j) = [(k, r)] ∧ ∃ x, (savedOf (l.take j)).getLast? = some x)
      by_cases hj : j ≤ l1.length
      · left
        rw [h4, List.take_append_of_le_length hj]
        have : proposalsOf l1 = [] := by simpa [slotsOf] using h5
        have : proposalsOf (l1.take j) = [] := by
          refine List.eq_nil_iff_forall_not_mem.2 fun x hx => ?_
          have hx' := take_sub _ l1 j x hx
          unfold proposalsOf at this
          rw [this] at hx'; cases hx'
        simp [slotsOf, this]
      · have hj' : ∃ j', j = l1.length + (j' + 1) := ⟨j - l1.length - 1, by omega⟩
        obtain ⟨j', rfl⟩ := hj'
        have e : l.take (l1.length + (j' + 1)) = l1 ++ (.saveWal w true :: l2.take j') := by
          rw [h4, List.take_length_add_append]; rfl
        rw [e]
        have e2 : slotsOf (l1 ++ (.saveWal w true :: l2.take j')) = slotsOf (l2.take j') := by
          rw [slotsOf_append, h5]; rfl
        rw [e2]
        have hsub : List.Sublist (slotsOf (l2.take j')) [(k, r)] := by
          rw [← h6]
          exact ((List.take_sublist j' l2).filterMap _).map _
        rcases List.sublist_singleton.1 hsub with h7 | h7
        · exact .inl h7
        · exact .inr ⟨h7, last (by rw [savedOf_append]; simp [savedOf])⟩
  have hsv : ∀ x ∈ savedOf (cutTo c l), recSlot x = (k, r) := fun x hx => h2 x (cut_sub _ c l x hx)
  rcases hpre with hpre | ⟨hpre, x, hx⟩
  · refine ⟨by rw [slotsOf_append, hpre, List.append_nil]; exact h.sorted, ?_⟩
    rw [slotsOf_append, hpre, List.append_nil, savedOf_append]
    intro p hp
    cases hs : (savedOf (cutTo c l)).getLast? with
    | none =>
      rw [List.getLast?_eq_none_iff] at hs
      rw [hs, List.append_nil]; exact h.saved p hp
    | some y =>
      exact ⟨y, by rw [List.getLast?_append, hs]; rfl, by rw [hsv y (List.mem_of_getLast? hs)]; exact le_of_lt (h3 p hp)⟩
  · refine ⟨?_, ?_⟩
    · rw [slotsOf_append, hpre, List.pairwise_append]
      exact ⟨h.sorted, by simp, fun a ha b hb => by rw [List.mem_singleton.1 hb]; exact h3 a ha⟩
    · rw [slotsOf_append, hpre, savedOf_append]
      intro p hp
      refine ⟨x, by rw [List.getLast?_append, hx]; rfl, ?_⟩
      rw [hsv x (List.mem_of_getLast? hx)]
      rcases List.mem_append.1 hp with hp | hp
      · exact le_of_lt (h3 p hp)
      · rw [List.mem_singleton.1 hp]; exact le_refl _

/-! ## Pending orders -/

/-- The pending events `evs` order the State of height `H`, which has entered rounds below `q`, to enter ever later
rounds, the last one not beyond that of `m`. -/
def NChain (H : Nat) : Nat → List SMREvent → Smr → Prop
  | q, [], m => q ≤ m.round + 1
  | q, .newRoundInfo h r _ _ _ _ _ :: evs, m => if h = H then q ≤ r ∧ NChain H (r + 1) evs m else NChain H q evs m
  | q, .prevoteVote .. :: evs, m => NChain H q evs m
  | q, .precommitVote .. :: evs, m => NChain H q evs m
  | q, .commit _ :: evs, m => NChain H q evs m
  | q, .brake .. :: evs, m => NChain H q evs m
  | q, .stop :: evs, m => NChain H q evs m

theorem nchain_append {H : Nat} {evs' : List SMREvent} {m m' : Smr} :
    ∀ (evs : List SMREvent) (q : Nat), NChain H q evs m →
      (∀ q, q ≤ m.round + 1 → NChain H q evs' m') → NChain H q (evs ++ evs') m' := by
  intro evs
  induction evs with
  | nil => intro q h hk; exact hk q h
  | cons ev evs ih =>
    intro q h hk
    cases ev <;> simp only [NChain, List.cons_append] at h ⊢
    · split at h
      · rename_i hh; rw [if_pos hh]; exact ⟨h.1, ih _ h.2 hk⟩
      · rename_i hh; rw [if_neg hh]; exact ih _ h hk
    all_goals exact ih _ h hk

/-- Pending events of other heights do not count. -/
theorem nchain_other {H : Nat} {tail : List SMREvent} {m : Smr} :
    ∀ (evs : List SMREvent) (q : Nat), (∀ ev ∈ evs, ∀ h, orderHeight ev = some h → h < H) →
      NChain H q tail m → NChain H q (evs ++ tail) m := by
  intro evs
  induction evs with
  | nil => intro q _ h; exact h
  | cons ev evs ih =>
    intro q hev h
    have ih' := ih q (fun ev' he' => hev ev' (List.mem_cons_of_mem _ he')) h
    have h0 := hev ev (by simp)
    cases ev <;> simp only [NChain, List.cons_append, orderHeight, Option.some.injEq] at h0 ⊢
    · rw [if_neg (by have := h0 _ rfl; omega)]; exact ih'
    all_goals exact ih'

theorem nchain_tail {H q : Nat} {ev : SMREvent} {evs : List SMREvent} {m : Smr} (h : NChain H q (ev :: evs) m)
    (hn : ∀ k r lr lp f ni nc, ev ≠ .newRoundInfo k r lr lp f ni nc) : NChain H q evs m := by
  cases ev <;> first | exact h | exact absurd rfl (hn _ _ _ _ _ _ _)

/-- One iteration of the voting state machine at the same height: later rounds only. -/
theorem nchain_smr {m : Smr} {t : SMRTrigger} (hw : NotWal t) (hr : t.round < 2 ^ 64 - 1)
    (hh : (m.onTrigger t).next.height = m.height) {q : Nat} (hq : q ≤ m.round + 1) :
    NChain m.height q ((m.onTrigger t).outs.filterMap Out.toState) (m.onTrigger t).next := by
  have hc := smr_case m t
  generalize m.onTrigger t = o at *
  cases hc with
  | quiet res => exact hq
  | newHeight st ht hs hlt => simp only at hh; omega
  | propTimer ht hs h1 h2 hstp => simpa [NChain, Out.toState] using hq
  | propState s1 ht hs h1 h2 hstp hne hacc =>
    obtain ⟨a1, a2, a3, _⟩ := accept_spec hacc
    simpa [NChain, Out.toState, a1, a2] using hq
  | prevoteTimer b ht hs h1 h2 hstp hb => simpa [NChain, Out.toState] using hq
  | prevoteSame ht hs h1 h2 hstp => simpa [NChain, Out.toState, updatePolc_height, updatePolc_round] using hq
  | prevoteSkip ht hs h1 h2 =>
    have := inc64_of_lt hr
    simp [NChain, Out.toState, updatePolc_height, updatePolc_round, this]
    omega
  | precommitTimer ht hs h1 h2 hstp => simpa [NChain, Out.toState] using hq
  | precommitNil ht hs h1 h2 hstp hn =>
    have := inc64_of_lt hr
    simp [NChain, Out.toState, this]
    omega
  | commit ht hs h1 hstp hn => simpa [NChain, Out.toState] using hq
  | brake ht hs h1 h2 => simpa [NChain, Out.toState] using hq
  | cont ht hs h1 h2 =>
    have := inc64_of_lt (n := t.round - 1) (by omega)
    simp [NChain, Out.toState, this]
    omega
  | wal w ht => exact absurd ht hw
  | stop ht => simpa [NChain, Out.toState] using hq

/-! ## The invariant of a running node -/

/-- A running node that has proposed in the slots `P`. -/
structure Lead (P : List Slot) (n : NodeSys T) : Prop where
  hP : ∀ p ∈ P, p.1 ≤ n.st.height
  gP : n.st.consensusPower = true → ∀ p ∈ P, le p (n.st.height, n.st.round)
  trig : ∀ t ∈ n.sys.trigQ, ∀ st, t.triggerType = .newHeight st → n.sys.smr.height < st.height → ∀ p ∈ P, p.1 < st.height
  chain : n.st.consensusPower = true → n.sys.smr.height = n.st.height →
    ∃ q, (∀ p ∈ P, p.1 = n.st.height → p.2 < q) ∧ NChain n.st.height q n.stQ n.sys.smr

theorem lead_frame {P : List Slot} {n n' : NodeSys T} (h : Lead P n) (h2 : n'.st = n.st)
    (h3 : n'.sys.smr = n.sys.smr) (h4 : n'.stQ = n.stQ)
    (h5 : ∀ t ∈ n'.sys.trigQ, t ∈ n.sys.trigQ ∨ ∀ st, t.triggerType ≠ .newHeight st) : Lead P n' := by
  refine ⟨by rw [h2]; exact h.hP, by rw [h2]; exact h.gP, ?_, by rw [h2, h3, h4]; exact h.chain⟩
  intro t ht st hst
  rw [h3]
  rcases h5 t ht with h6 | h6
  · exact h.trig t h6 st hst
  · exact absurd hst (h6 st)

/-- The voting state machine handles a trigger. -/
theorem lead_smr {P : List Slot} {n n' : NodeSys T} {t : SMRTrigger} {q : List SMRTrigger} (h : Lead P n)
    (hw : NotWal t) (hev : ∀ ev ∈ n.stQ, ∀ h, orderHeight ev = some h → h ≤ n.sys.smr.height)
    (hq : n.sys.trigQ = t :: q) (hr : t.round < 2 ^ 64 - 1) (h2 : n'.st = n.st)
    (h3 : n'.sys.smr = (n.sys.smr.onTrigger t).next)
    (h4 : n'.stQ = n.stQ ++ (n.sys.smr.onTrigger t).outs.filterMap Out.toState)
    (h5 : n'.sys.trigQ = q) : Lead P n' := by
  have htr := h.trig t (by rw [hq]; simp)
  obtain ⟨g1, g2, g3⟩ := smr_heights (m := n.sys.smr) hw
  refine ⟨by rw [h2]; exact h.hP, by rw [h2]; exact h.gP, ?_, ?_⟩
  · intro t' ht' st hst hlt
    rw [h5] at ht'
    rw [h3] at hlt
    exact h.trig t' (by rw [hq]; exact List.mem_cons_of_mem _ ht') st hst (by omega)
  · rw [h2, h3, h4]
    intro hp heq
    rcases g3 with g3 | ⟨st, g3, g4, g5, f, ni, nc, g6⟩
    · rw [g3] at heq
      obtain ⟨q0, c1, c2⟩ := h.chain hp heq
      refine ⟨q0, c1, nchain_append _ _ c2 fun q' hq' => ?_⟩
      rw [← heq]
      exact nchain_smr hw hr g3 hq'
    · -- a new height
      rw [g5] at heq
      simp only at heq
      have hlow := htr st g3 g4
      refine ⟨0, ?_, ?_⟩
      · intro p hp' he; have := hlow p hp'; omega
      · refine nchain_other _ _ (fun ev hev' hh ho => ?_) ?_
        · have := hev ev hev' hh ho; omega
        · rw [g6, g5]
          simp [Out.toState, NChain, heq]

/-- The State handles an input without entering a round or moving on. -/
theorem lead_stay {P : List Slot} {n n' : NodeSys T} {l : List (Effect T)} (h : Lead P n) (hs : SamePos n.st n'.st)
    (hr : n'.st.round = n.st.round) (h3 : n'.sys.smr = n.sys.smr) (h5 : n'.sys.trigQ = n.sys.trigQ ++ trigsOf l)
    (hno : ∀ st, .high st ∉ obs l)
    (h4 : n.st.consensusPower = true → ∀ q m, NChain n.st.height q n.stQ m → NChain n.st.height q n'.stQ m) : Lead P n' := by
  refine ⟨by rw [hs.height]; exact h.hP, by rw [hs.height, hs.power, hr]; exact h.gP, ?_, ?_⟩
  · intro t ht st hst
    rw [h3]
    rw [h5] at ht
    rcases List.mem_append.1 ht with ht | ht
    · exact h.trig t ht st hst
    · exact absurd (high_of_trigger (mem_trigsOf.1 ht) hst) (hno st)
  · rw [h3, hs.height, hs.power]
    intro hp heq
    obtain ⟨q0, c1, c2⟩ := h.chain hp heq
    exact ⟨q0, c1, h4 hp _ _ c2⟩

/-- The State moves on to another height. -/
theorem lead_away {P : List Slot} {n n' : NodeSys T} {l : List (Effect T)} (h : Lead P n) (hs : n.st.height < n'.st.height)
    (hle : n.sys.smr.height ≤ n.st.height)
    (h3 : n'.sys.smr = n.sys.smr) (h5 : n'.sys.trigQ = n.sys.trigQ ++ trigsOf l)
    (hno : ∀ st, .high st ∈ obs l → st.height = n'.st.height) : Lead P n' := by
  refine ⟨fun p hp => by have := h.hP p hp; omega, fun _ p hp => .inl (by have := h.hP p hp; dsimp only; omega), ?_, ?_⟩
  · intro t ht st hst
    rw [h3]
    rw [h5] at ht
    rcases List.mem_append.1 ht with ht | ht
    · exact h.trig t ht st hst
    · have := hno st (high_of_trigger (mem_trigsOf.1 ht) hst)
      intro _ p hp
      have := h.hP p hp
      omega
  · rw [h3]; intro _ heq; omega

/-- The State enters a round. -/
theorem lead_round {P : List Slot} {k0 : Nat} {p0 : Pos} {n n' : NodeSys T} {h0 r0 : Nat} {lr lp f ni nc} {w : World T} {q : List SMREvent} (h : Lead P n)
    (hl : Live k0 p0 n) (o : RoundOut n.st r0 lr w) (hq : n.stQ = .newRoundInfo h0 r0 lr lp f ni nc :: q) (hh : h0 = n.st.height)
    (hp : n.st.consensusPower = true) :
    (∀ p ∈ P, lt p (n.st.height, r0)) ∧
    (n'.st = w.st → n'.sys.smr = n.sys.smr → n'.sys.trigQ = n.sys.trigQ ++ trigsOf w.log → n'.stQ = q →
      ∀ P', (∀ p ∈ P', p ∈ P ∨ p = (n.st.height, r0)) → Lead P' n') := by
  subst hh
  have hin : n.sys.smr.height = n.st.height := by
    have := hl.evLe _ (by rw [hq]; exact List.mem_cons_self ..) n.st.height rfl
    have := hl.smrLe
    omega
  obtain ⟨q0, c1, c2⟩ := h.chain hp hin
  rw [hq] at c2
  simp only [NChain, if_true] at c2
  obtain ⟨c3, c4⟩ := c2
  have hlt : ∀ p ∈ P, lt p (n.st.height, r0) := by
    intro p hp'
    have := h.hP p hp'
    unfold lt
    by_cases e : p.1 = n.st.height
    · right; have := c1 p hp' e; exact ⟨e, by dsimp only; omega⟩
    · left; dsimp only; omega
  refine ⟨hlt, fun h2 h3 h5 h4 P' hP' => ?_⟩
  have hs := o.same
  rw [← h2] at hs
  have hr : n'.st.round = r0 := by rw [h2]; exact o.round
  have hle : ∀ p ∈ P', le p (n.st.height, r0) := by
    intro p hp'
    rcases hP' p hp' with hp' | rfl
    · exact le_of_lt (hlt p hp')
    · exact le_refl _
  refine ⟨?_, ?_, ?_, ?_⟩
  · rw [hs.height]; intro p hp'; have := hle p hp'; unfold le at this; dsimp only at this; omega
  · rw [hs.height, hr]; exact fun _ => hle
  · intro t ht st hst hlt'
    rw [h3] at hlt'
    rw [h5] at ht
    rcases List.mem_append.1 ht with ht | ht
    · intro p hp'
      have := hle p hp'; unfold le at this; dsimp only at this; omega
    · have hm := high_of_trigger (mem_trigsOf.1 ht) hst
      rcases o.out with ho | ⟨lock, u, _, ho⟩ <;> rw [ho] at hm <;> simp at hm
  · rw [h3, hs.height, hs.power, h4]
    intro _ _
    refine ⟨r0 + 1, ?_, c4⟩
    intro p hp' he
    have := hle p hp'; unfold le at this; dsimp only at this; omega


/-! ## One step of the State's loop -/

/-- What a move saves and tells, and where it ends. -/
theorem moves_obs {e : Env T} {s : State T} {status : Status} {w : World T} (m : Moves e s status w) :
    (w.st = s ∧ obs w.log = []) ∨
    (s.height < w.st.height ∧ (∀ st, .high st ∈ obs w.log → st.height = w.st.height) ∧
      ∀ x, .save x ∈ obs w.log → x.height = w.st.height) := by
  cases m with
  | stay hh => exact .inl ⟨rfl, rfl⟩
  | away hh hp => exact .inr ⟨hh, by simp, by simp⟩
  | lost hh hp hs => exact .inr ⟨hh, by simp [obs, obsOf, releasedVote], by simp [obs, obsOf, releasedVote]⟩
  | adopt hh hp hs =>
    refine .inr ⟨hh, ?_, ?_⟩ <;> dsimp only <;> rw [obs_adopt _ _ _ _ status.toSMR rfl]
    · intro st hst
      simp only [List.mem_cons, reduceCtorEq, List.not_mem_nil, or_false, false_or, Obs.high.injEq] at hst
      subst hst; rfl
    · intro x hx
      simp only [List.mem_cons, reduceCtorEq, List.not_mem_nil, or_false, Obs.save.injEq] at hx
      subst hx; rfl

/-- What a commit saves and tells, and where it ends. -/
theorem commit_obs {e : Env T} {s : State T} {hash : Hash} {w : World T} (c : CommitOut e s hash w) :
    (SamePos s w.st ∧ w.st.round = s.round ∧ (∀ st, .high st ∉ obs w.log) ∧ ∀ x, .save x ∈ obs w.log → recSlot x = (s.height, s.round)) ∨
    (s.height < w.st.height ∧ (∀ st, .high st ∈ obs w.log → st.height = w.st.height) ∧
      ∀ x, .save x ∈ obs w.log → recSlot x = (s.height, s.round) ∨ x.height = w.st.height) := by
  cases c with
  | none => exact .inl ⟨.refl _, rfl, by simp, by simp⟩
  | lost => exact .inl ⟨.refl _, rfl, by simp [obs, obsOf, releasedVote], by simp [obs, obsOf, releasedVote]⟩
  | failed content qc =>
    refine .inl ⟨.refl _, rfl, by simp [obs, obsOf, releasedVote], ?_⟩
    intro x hx
    simp [obs, obsOf] at hx
    subst hx; rfl
  | stuck content qc =>
    refine .inl ⟨⟨rfl, rfl, rfl⟩, rfl, by simp [obs, obsOf, releasedVote], ?_⟩
    intro x hx
    simp [obs, obsOf] at hx
    subst hx; rfl
  | done content qc status w2 hb hq hs hc hm =>
    dsimp only
    have ho : obs ([Effect.saveWal (commitRec s qc content) true, .commitCall s.height (mkCommit s hash content qc) (some status)] ++ w2.log) =
        [.save (commitRec s qc content), .call s.height (mkCommit s hash content qc) (some status)] ++ obs w2.log := by
      rw [obs_append]; rfl
    rw [ho]
    rcases moves_obs hm with ⟨m1, m2⟩ | ⟨m1, m2, m3⟩
    · left
      rw [m2, m1]
      refine ⟨⟨rfl, rfl, rfl⟩, rfl, by simp, ?_⟩
      intro x hx
      simp at hx
      subst hx; rfl
    · right
      refine ⟨m1, ?_, ?_⟩
      · intro st hst
        simp only [List.cons_append, List.nil_append, List.mem_cons, reduceCtorEq, false_or] at hst
        exact m2 st hst
      · intro x hx
        simp only [List.cons_append, List.nil_append, List.mem_cons, reduceCtorEq, false_or, Obs.save.injEq] at hx
        rcases hx with rfl | hx
        · exact .inl rfl
        · exact .inr (m3 x hx)

theorem mem_saved {l : List (Effect T)} {x : WalInfo T} : x ∈ savedOf l ↔ .save x ∈ obs l := by
  rw [savedOf_obs]
  unfold obsSaves
  rw [List.mem_filterMap]
  constructor
  · rintro ⟨y, hy, h⟩
    cases y <;> simp at h
    subst h; exact hy
  · intro h; exact ⟨_, h, rfl⟩

theorem lead_arm {k0 : Nat} {p0 : Pos} {n n1 : NodeSys T} {a : Arm T} {e : Env T} {i : Input T} {cut : Option Nat}
    (h : Lead (slotsOf n.log) n) (hl : Live k0 p0 n) (ok : InSync n (.arm a e cut)) (ht : n.take a = some (i, n1)) (hg : Ordered n.log) :
    ((n1.took cut (runArm i e ⟨n.st, []⟩)).down = false →
      Lead (slotsOf (n1.took cut (runArm i e ⟨n.st, []⟩)).log) (n1.took cut (runArm i e ⟨n.st, []⟩))) ∧
    Ordered (n.log ++ cutTo cut (runArm i e ⟨n.st, []⟩).2.log) := by
  obtain ⟨hi, e1, e2, e3, e4⟩ := take_spec ht
  -- the node after the whole input
  have key : (runArm i e ⟨n.st, []⟩).1 = .ok true → cut = none →
      ∀ n', n' = n1.took cut (runArm i e ⟨n.st, []⟩) →
      n'.log = n.log ++ (runArm i e ⟨n.st, []⟩).2.log ∧ n'.st = (runArm i e ⟨n.st, []⟩).2.st ∧ n'.sys.smr = n.sys.smr ∧
      n'.stQ = n1.stQ ∧ n'.sys.trigQ = n.sys.trigQ ++ trigsOf (runArm i e ⟨n.st, []⟩).2.log := by
    rintro _ rfl n' rfl
    simp [NodeSys.took, NodeSys.absorb, cutTo, e1, e2, e3]
  -- the pending orders
  have qs : ∀ q m, ((∀ ev, i ≠ .event ev) ∨ ∃ ev, i = .event ev ∧ ∀ k r lr lp f ni nc, ev ≠ .newRoundInfo k r lr lp f ni nc) →
      NChain n.st.height q n.stQ m → NChain n.st.height q n1.stQ m := by
    intro q m hev hc
    rcases e4 with ⟨e4, _⟩ | ⟨_, ev, rfl, e4⟩
    · rw [e4]; exact hc
    · rw [e4] at hc
      rcases hev with hev | ⟨ev', hev, hev'⟩
      · exact absurd rfl (hev ev)
      · cases hev; exact nchain_tail hc hev'
  -- outcomes in the same place
  have stay : slotsOf (runArm i e ⟨n.st, []⟩).2.log = [] → SamePos n.st (runArm i e ⟨n.st, []⟩).2.st →
      (runArm i e ⟨n.st, []⟩).2.st.round = n.st.round → (∀ st, .high st ∉ obs (runArm i e ⟨n.st, []⟩).2.log) →
      (∀ x, .save x ∈ obs (runArm i e ⟨n.st, []⟩).2.log → n.st.consensusPower = true ∧ recSlot x = (n.st.height, n.st.round)) →
      ((n1.took cut (runArm i e ⟨n.st, []⟩)).down = false → n.st.consensusPower = true →
        ∀ q m, NChain n.st.height q n.stQ m → NChain n.st.height q n1.stQ m) →
      ((n1.took cut (runArm i e ⟨n.st, []⟩)).down = false →
        Lead (slotsOf (n1.took cut (runArm i e ⟨n.st, []⟩)).log) (n1.took cut (runArm i e ⟨n.st, []⟩))) ∧
      Ordered (n.log ++ cutTo cut (runArm i e ⟨n.st, []⟩).2.log) := by
    intro q1 q2 q3 q4 q5 q6
    refine ⟨fun hup => ?_, ordered_quiet hg q1 (fun x hx p hp => ?_) cut⟩
    · obtain ⟨hc, hr⟩ := took_up hup
      obtain ⟨k1, k2, k3, k4, k5⟩ := key hr hc _ rfl
      rw [k1, slotsOf_append, q1, List.append_nil]
      exact lead_stay h (by rw [k2]; exact q2) (by rw [k2]; exact q3) k3 k5 q4 (by rw [k4]; exact q6 hup)
    · obtain ⟨hpw, hx⟩ := q5 x (mem_saved.1 hx)
      rw [hx]; exact h.gP hpw p hp
  -- outcomes at another height
  have away : slotsOf (runArm i e ⟨n.st, []⟩).2.log = [] → n.st.height < (runArm i e ⟨n.st, []⟩).2.st.height →
      (∀ st, .high st ∈ obs (runArm i e ⟨n.st, []⟩).2.log → st.height = (runArm i e ⟨n.st, []⟩).2.st.height) →
      (∀ x, .save x ∈ obs (runArm i e ⟨n.st, []⟩).2.log → (n.st.consensusPower = true ∧ recSlot x = (n.st.height, n.st.round)) ∨
        x.height = (runArm i e ⟨n.st, []⟩).2.st.height) →
      ((n1.took cut (runArm i e ⟨n.st, []⟩)).down = false →
        Lead (slotsOf (n1.took cut (runArm i e ⟨n.st, []⟩)).log) (n1.took cut (runArm i e ⟨n.st, []⟩))) ∧
      Ordered (n.log ++ cutTo cut (runArm i e ⟨n.st, []⟩).2.log) := by
    intro q1 q2 q3 q4
    refine ⟨fun hup => ?_, ordered_quiet hg q1 (fun x hx p hp => ?_) cut⟩
    · obtain ⟨hc, hr⟩ := took_up hup
      obtain ⟨k1, k2, k3, k4, k5⟩ := key hr hc _ rfl
      rw [k1, slotsOf_append, q1, List.append_nil]
      exact lead_away h (by rw [k2]; exact q2) hl.smrLe k3 k5 (by rw [k2]; exact q3)
    · rcases q4 x (mem_saved.1 hx) with ⟨hpw, hx⟩ | hx
      · rw [hx]; exact h.gP hpw p hp
      · left; have := h.hP p hp; simp only [recSlot]; omega
  by_cases hidle : ∃ ev, i = .event ev ∧ (n.st.consensusPower = false ∨ n.st.stopped = true)
  · obtain ⟨ev, rfl, hid⟩ := hidle
    have hq := event_idle (e := e) (ev := ev) hid
    refine stay (by rw [hq]; rfl) (by rw [hq]; exact .refl _) (by rw [hq]) (by rw [hq]; simp) (by rw [hq]; simp) ?_
    intro hup hpw
    rcases hid with hid | hid
    · rw [hpw] at hid; cases hid
    · obtain ⟨_, hr⟩ := took_up hup
      rw [stopped_ends hid] at hr
      cases hr
  have hid : ∀ ev, i = .event ev → n.st.consensusPower = true ∧ n.st.stopped = false := by
    intro ev hev
    have : ¬ (n.st.consensusPower = false ∨ n.st.stopped = true) := fun hh => hidle ⟨ev, hev, hh⟩
    simpa only [not_or, Bool.not_eq_false, Bool.not_eq_true] using this
  by_cases hnr : ∃ k r lr lp f ni nc, i = .event (.newRoundInfo k r lr lp f ni nc)
  · obtain ⟨k, r, lr, lp, f, ni, nc, rfl⟩ := hnr
    have hid := hid _ rfl
    have hout := event_out e n.st (.newRoundInfo k r lr lp f ni nc) hid.1 hid.2
    cases hout with
    | newRound _ _ _ _ _ _ _ o =>
      have hone := arm_one (e := e) (s := n.st) (k := k) (r := r) (lr := lr) (lp := lp) (f := f) (ni := ni) (nc := nc) hid.1 hid.2
      rcases e4 with ⟨_, e5⟩ | ⟨rfl, ev', hev, e4⟩
      · exact absurd rfl (e5 _)
      cases hev
      obtain ⟨r1, r2⟩ := lead_round (n' := n1.took cut (runArm (.event (.newRoundInfo k r lr lp f ni nc)) e ⟨n.st, []⟩)) h hl o e4
        (ok _ _ _ e4 rfl) hid.1
      refine ⟨fun hup => ?_, ordered_lead hg hone (fun x hx => ?_) r1 cut⟩
      · obtain ⟨hc, hr⟩ := took_up hup
        obtain ⟨k1, k2, k3, k4, k5⟩ := key hr hc _ rfl
        refine r2 k2 k3 k5 k4 _ fun p hp => ?_
        rw [k1, slotsOf_append] at hp
        rcases List.mem_append.1 hp with hp | hp
        · exact .inl hp
        · right
          rcases hone with ho | ⟨l1, w, l2, ho, h1, h2⟩
          · rw [ho] at hp; cases hp
          · rw [ho, slotsOf_append, h1] at hp
            have hp : p ∈ slotsOf l2 := hp
            rw [h2] at hp; exact List.mem_singleton.1 hp
      · have hx := mem_saved.1 hx
        rcases o.out with ho | ⟨lock, u, _, ho⟩ <;> rw [ho] at hx
        · cases hx
        · simp at hx; subst hx; rfl
  have hsl : slotsOf (runArm i e ⟨n.st, []⟩).2.log = [] := by
    refine arm_slots ?_
    rintro r lr lp f ⟨h, ni, nc, h'⟩
    exact hnr ⟨_, _, _, _, _, _, _, h'⟩
  have hqs : (n1.took cut (runArm i e ⟨n.st, []⟩)).down = false → n.st.consensusPower = true →
      ∀ q m, NChain n.st.height q n.stQ m → NChain n.st.height q n1.stQ m := by
    refine fun _ _ q m => qs q m ?_
    by_cases he : ∃ ev, i = .event ev
    · obtain ⟨ev, rfl⟩ := he
      exact .inr ⟨ev, rfl, fun k r lr lp f ni nc h => hnr ⟨k, r, lr, lp, f, ni, nc, by rw [h]⟩⟩
    · exact .inl fun ev h => he ⟨ev, h⟩
  cases arm_out e n.st i hi with
  | quiet q1 q2 q3 => exact stay hsl q2 q3 (by rw [q1]; simp) (by rw [q1]; simp) hqs
  | status st hst o =>
    rcases moves_obs o with ⟨m1, m2⟩ | ⟨m1, m2, m3⟩
    · exact stay hsl (by rw [m1]; exact .refl _) (by rw [m1]) (by rw [m2]; simp) (by rw [m2]; simp) hqs
    · exact away hsl m1 m2 (fun x hx => .inr (m3 x hx))
  | event ev hev hp o =>
    have hid := hid ev hev
    cases o with
    | newRound k r lr lp f ni nc o => exact absurd ⟨_, _, _, _, _, _, _, hev⟩ hnr
    | prevote h0 r hash lr o =>
      refine stay hsl o.same o.round ?_ ?_ hqs
      · rcases o.out with ho | ⟨lock, sv, _, _, _, ho⟩ <;> rw [ho] <;> simp
      · rcases o.out with ho | ⟨lock, sv, _, _, _, ho⟩ <;> rw [ho]
        · simp
        · intro x hx; simp at hx; subst hx; exact ⟨hid.1, rfl⟩
    | precommit h0 r hash lr o =>
      refine stay hsl o.same o.round ?_ ?_ hqs
      · rcases o.out with ho | ⟨lock, sv, _, _, _, ho⟩ <;> rw [ho] <;> simp
      · rcases o.out with ho | ⟨lock, sv, _, _, _, ho⟩ <;> rw [ho]
        · simp
        · intro x hx; simp at hx; subst hx; exact ⟨hid.1, rfl⟩
    | commit hash o =>
      rcases commit_obs o with ⟨m1, m2, m3, m4⟩ | ⟨m1, m2, m3⟩
      · exact stay hsl m1 m2 m3 (fun x hx => ⟨hid.1, m4 x hx⟩) hqs
      · exact away hsl m1 m2 (fun x hx => (m3 x hx).imp (fun h => ⟨hid.1, h⟩) id)
    | brake r lr o =>
      refine stay hsl o.same o.round ?_ ?_ hqs
      · rcases o.out with ho | ⟨lock, _, ho⟩ <;> rw [ho] <;> simp
      · rcases o.out with ho | ⟨lock, _, ho⟩ <;> rw [ho]
        · simp
        · intro x hx; simp at hx; subst hx; exact ⟨hid.1, rfl⟩
    | stale h0 r lr hh hw =>
      exact stay hsl (by rw [hw]; exact .refl _) (by rw [hw]) (by rw [hw]; simp) (by rw [hw]; simp) hqs
    | stop hw =>
      exact stay hsl (by rw [hw]; exact .refl _) (by rw [hw]) (by rw [hw]; simp) (by rw [hw]; simp) hqs


/-! ## A start -/

theorem lead_drain1 {P : List Slot} {n : NodeSys T} {t : SMRTrigger} (h : Lead P { n with sys := { n.sys with trigQ := [t] } })
    (hw : NotWal t) (hr : t.round < 2 ^ 64 - 1) (hs : n.stQ = []) (hq : n.sys.trigQ = []) (hd : (n.drain [t]).down = false) :
    Lead P (n.drain [t]) := by
  have step : Lead P { n with
      sys := { n.sys with smr := (n.sys.smr.onTrigger t).next,
                          evtQ := n.sys.evtQ ++ (n.sys.smr.onTrigger t).outs.map Out.event, trigQ := [] }
      stQ := n.stQ ++ (n.sys.smr.onTrigger t).outs.filterMap Out.toState } :=
    lead_smr (t := t) (q := []) h hw (by rw [show (_ : NodeSys T).stQ = [] from hs]; simp) rfl hr rfl rfl rfl rfl
  simp only [NodeSys.drain] at hd ⊢
  split at hd
  · exact lead_frame step rfl rfl rfl (by simp [hq])
  · exact lead_frame step rfl rfl rfl (by simp [hq])
  · simp at hd
  · simp at hd

/-- What is known when a node starts, about the slots in which it proposed before. -/
def Known (e : Env T) (listed : Bool) (h0 : Nat) (P : List Slot) : Prop :=
  (listed = false ∧ ∀ p ∈ P, p.1 ≤ h0) ∨
  (listed = true ∧ e.walLoad = some none ∧ P = []) ∨
  (listed = true ∧ ∃ (w : WalInfo T) (b : Bytes), e.walLoad = some (some b) ∧ decWalInfo b = .ok w ∧ w.height ≠ 0 ∧
    ∀ p ∈ P, le p (recSlot w))

theorem known_start {addr : Address} {n : NodeSys T} {p : StartParams} {e : Env T} {cut : Option Nat} (hg : Ordered n.log)
    (ok : StartOk addr n (.start p e cut)) :
    Known e (p.list.map Node.address |>.contains addr) p.initHeight (slotsOf n.log) := by
  simp only [StartOk] at ok
  split at ok
  · rename_i hl
    rw [hl]
    right
    unfold lastSaved at ok
    split at ok
    · rename_i hn
      refine .inl ⟨rfl, ok, List.eq_nil_iff_forall_not_mem.2 fun v hv => ?_⟩
      obtain ⟨w, hw, _⟩ := hg.saved v hv
      rw [hn] at hw; cases hw
    · rename_i w hw
      obtain ⟨h0, b, h1, h2⟩ := ok
      refine .inr ⟨rfl, w, b, h1, h2, h0, fun v hv => ?_⟩
      obtain ⟨w', hw', h3⟩ := hg.saved v hv
      rw [hw] at hw'; cases hw'; exact h3
  · rename_i hl
    refine .inl ⟨(Bool.not_eq_true _).mp hl, fun v hv => ?_⟩
    obtain ⟨w', hw', h3⟩ := hg.saved v hv
    have := ok w' (List.mem_of_getLast? hw')
    simp only [le, recSlot] at h3
    omega

theorem start_lead {addr : Address} {p : StartParams} {log : List (Effect T)} {e : Env T} {w : World T} {P : List Slot}
    (hkn : Known e (p.list.map Node.address |>.contains addr) p.initHeight P)
    (o : StartOut e (State.new addr p.initHeight p.interval p.list) w)
    (hd : (NodeSys.started addr p log w).down = false) :
    Lead P (NodeSys.started addr p log w) := by
  generalize hS : State.new addr p.initHeight p.interval p.list = S at *
  have hpow : S.consensusPower = (p.list.map Node.address |>.contains addr) := by
    rw [← hS]
    have := update_contains p.list addr
    simp only [State.new]
    rw [Bool.eq_iff_iff, this, List.contains_iff_mem]
  have hSh : S.height = p.initHeight := by rw [← hS]; rfl
  have hSr : S.round = 0 := by rw [← hS]; rfl
  rw [← hpow] at hkn
  -- a node whose machine has not been told anything
  have quiet : ∀ (s : State T), (∀ p ∈ P, p.1 ≤ s.height) →
      (s.consensusPower = true → ∀ p ∈ P, le p (s.height, s.round)) →
      (s.consensusPower = true → s.height = 0 → P = []) →
      ∀ n' : NodeSys T, n'.st = s → n'.sys.smr = Smr.init → n'.stQ = [] → (∀ t ∈ n'.sys.trigQ, ∀ st, t.triggerType ≠ .newHeight st) →
        Lead P n' := by
    intro s g1 g2 g3 n' e2 e3 e4 e5
    refine ⟨by rw [e2]; exact g1, by rw [e2]; exact g2, fun t ht st hst => absurd hst (e5 t ht st), ?_⟩
    rw [e2, e3, e4]
    intro hp hh
    rw [g3 hp hh.symm]
    exact ⟨0, by simp, by simp [NChain]⟩
  -- a machine that has taken over a position
  have resumed : ∀ (s : State T) (b : SMRBase), s.height = b.height → s.round = b.round → (∀ p ∈ P, le p (b.height, b.round)) →
      ∀ n' : NodeSys T, n'.st = s → n'.sys.smr = (Smr.init.handleWal b).next → n'.stQ = [] → n'.sys.trigQ = [] → Lead P n' := by
    intro s b g1 g2 g3 n' e2 e3 e4 e5
    have hm : (Smr.init.handleWal b).next.height = b.height ∧ (Smr.init.handleWal b).next.round = b.round := by
      unfold Smr.handleWal; dsimp only; split <;> exact ⟨rfl, rfl⟩
    obtain ⟨m1, m2⟩ := hm
    refine ⟨?_, by rw [e2, g1, g2]; exact fun _ => g3, by rw [e5]; simp, ?_⟩
    · rw [e2, g1]; intro p hp; have := g3 p hp; simp only [le] at this; omega
    · rw [e2, e3, e4, g1]
      intro _ _
      refine ⟨b.round + 1, ?_, by simp [NChain, m2]⟩
      intro p hp he; have := g3 p hp; simp only [le] at this; omega
  -- what is known about a record
  have known : ∀ (w : WalInfo T) b, S.consensusPower = true → e.walLoad = some (some b) → decWalInfo b = .ok w →
      w.height ≠ 0 ∧ ∀ p ∈ P, le p (w.height, w.round) := by
    intro w b hp hl hw
    rcases hkn with ⟨h, _⟩ | ⟨_, h, _⟩ | ⟨_, w', b', h1, h2, h3, h4⟩
    · rw [hp] at h; cases h
    · rw [hl] at h; cases h
    · rw [hl] at h1; cases h1; rw [hw] at h2; cases h2; exact ⟨h3, h4⟩
  have hle : ∀ {w : WalInfo T}, (∀ p ∈ P, le p (w.height, w.round)) → ∀ p ∈ P, p.1 ≤ w.height := by
    intro w h p hp; have := h p hp; simp only [le] at this; omega
  cases o with
  | idle hw h =>
    subst hw
    -- nothing known, or no power
    have h0 : S.consensusPower = false ∨ P = [] := by
      rcases hkn with ⟨h1, _⟩ | ⟨_, _, h1⟩ | ⟨hp, w', b', h1, h2, h3, h4⟩
      · exact .inl h1
      · exact .inr h1
      · rcases h hp with h | h
        · rcases h with h | ⟨b, x, h, h'⟩
          · rw [h1] at h; cases h
          · rw [h1] at h; cases h; rw [h2] at h'; cases h'
        · rw [h1] at h; cases h.1
    refine quiet S ?_ ?_ ?_ _ (by unfold NodeSys.started; rw [drain_st]) rfl rfl (by unfold NodeSys.started; simp [trigsOf, NodeSys.drain])
    · rcases h0 with h0 | h0
      · rcases hkn with ⟨_, h1⟩ | ⟨h1, _⟩ | ⟨h1, _⟩
        · rw [hSh]; exact h1
        · rw [h0] at h1; cases h1
        · rw [h0] at h1; cases h1
      · rw [h0]; simp
    · intro hp
      rcases h0 with h0 | h0
      · rw [hp] at h0; cases h0
      · rw [h0]; simp
    · intro hp _
      rcases h0 with h0 | h0
      · rw [hp] at h0; cases h0
      · exact h0
  | fresh hp hl hh hw =>
    subst hw
    have hP : P = [] := by
      rcases hkn with ⟨h1, _⟩ | ⟨_, h1, h2⟩ | ⟨hp, w', b', h1, _⟩
      · rw [hp] at h1; cases h1
      · exact h2
      · rw [hl] at h1; cases h1
    obtain ⟨evt, hdr⟩ := drain_wal ({ (NodeSys.fresh addr p log).absorb
          [.trigger (walTrig { height := S.height, round := S.round, step := .propose, polc := none })] with
        sys := { (NodeSys.fresh addr p log : NodeSys T).sys with trigQ := [] }, st := S, down := false } : NodeSys T)
        { height := S.height, round := S.round, step := .propose, polc := none } (by simp)
    have : NodeSys.started addr p log ⟨S, [.trigger (walTrig { height := S.height, round := S.round, step := .propose, polc := none })]⟩ = _ := hdr
    rw [this]
    exact resumed S { height := S.height, round := S.round, step := .propose, polc := none } rfl rfl (by rw [hP]; simp) _ rfl rfl rfl rfl
  | noLeader b rec x hp hl hdec hx hw =>
    subst hw
    obtain ⟨h1, h2⟩ := known rec b hp hl hdec
    exact quiet { S with height := rec.height, round := rec.round } (hle h2) (fun _ => h2) (fun _ h => absurd h h1) _
      (by unfold NodeSys.started; rw [drain_st]) rfl rfl (by unfold NodeSys.started; simp [trigsOf, NodeSys.drain])
  | noLock b rec pr hp hl hdec hx hst hlk hw =>
    subst hw
    obtain ⟨h1, h2⟩ := known rec b hp hl hdec
    obtain ⟨r1, r2, r3, r4⟩ := restored_pos S rec pr
    exact quiet (S.restored rec pr) (by rw [r1]; exact hle h2) (fun _ => by rw [r1, r2]; exact h2) (fun _ h => absurd (r1.symm.trans h) h1) _
      (by unfold NodeSys.started; rw [drain_st]) rfl rfl (by unfold NodeSys.started; simp [trigsOf, NodeSys.drain])
  | commit b rec pr lock hp hl hdec hx hst hlk o =>
    obtain ⟨h1, h2⟩ := known rec b hp hl hdec
    obtain ⟨r1, r2, r3, r4⟩ := restored_pos S rec pr
    have same : ∀ w' : World T, SamePos (S.restored rec pr) w'.st → w'.st.round = (S.restored rec pr).round →
        (∀ t, .trigger t ∉ w'.log) → Lead P (NodeSys.started addr p log w') := by
      intro w' hs hr hno
      have hts : trigsOf w'.log = [] := List.eq_nil_iff_forall_not_mem.2 fun t ht => hno t (mem_trigsOf.1 ht)
      refine quiet w'.st (by rw [hs.height, r1]; exact hle h2) (fun _ => by rw [hs.height, hr, r1, r2]; exact h2)
        (fun _ h => absurd (r1.symm.trans (hs.height.symm.trans h)) h1) _ (by unfold NodeSys.started; rw [drain_st]) ?_ ?_ ?_
      all_goals
        unfold NodeSys.started
        rw [hts]
        simp [NodeSys.drain, NodeSys.absorb, NodeSys.fresh, TimerSys.boot]
    cases o with
    | none => exact same _ (.refl _) rfl (by simp)
    | lost content qc => exact same _ (.refl _) rfl (by simp)
    | failed content qc => exact same _ (.refl _) rfl (by simp)
    | stuck content qc status x => exact same _ ⟨rfl, rfl, rfl⟩ rfl (by simp)
    | done content qc status w2 hb hq hs hc hm =>
      cases hm with
      | stay hh => exact same _ ⟨rfl, rfl, rfl⟩ rfl (by simp)
      | away hh hpw =>
        have hlt : rec.height < status.height := by rw [← r1]; exact hh
        refine quiet _ ?_ ?_ ?_ _ (by unfold NodeSys.started; rw [drain_st]) (by simp [NodeSys.started, NodeSys.drain, trigsOf, NodeSys.absorb, NodeSys.fresh, TimerSys.boot]) (by simp [NodeSys.started, NodeSys.drain, trigsOf, NodeSys.absorb, NodeSys.fresh, TimerSys.boot]) (by simp [NodeSys.started, NodeSys.drain, trigsOf, NodeSys.absorb, NodeSys.fresh, TimerSys.boot])
        · intro q hq'; have := hle h2 q hq'; show q.1 ≤ status.height; omega
        · intro _ q hq'; left; have := hle h2 q hq'; show q.1 < status.height; omega
        · intro _ h; exfalso; have : status.height = 0 := h; omega
      | lost hh hpw hs' =>
        have hlt : rec.height < status.height := by rw [← r1]; exact hh
        refine quiet _ ?_ ?_ ?_ _ (by unfold NodeSys.started; rw [drain_st]) (by simp [NodeSys.started, NodeSys.drain, trigsOf, NodeSys.absorb, NodeSys.fresh, TimerSys.boot]) (by simp [NodeSys.started, NodeSys.drain, trigsOf, NodeSys.absorb, NodeSys.fresh, TimerSys.boot]) (by simp [NodeSys.started, NodeSys.drain, trigsOf, NodeSys.absorb, NodeSys.fresh, TimerSys.boot])
        · intro q hq'; have := hle h2 q hq'; show q.1 ≤ status.height; omega
        · intro _ q hq'; left; have := hle h2 q hq'; show q.1 < status.height; omega
        · intro _ h; exfalso; have : status.height = 0 := h; omega
      | adopt hh hpw hs' =>
        have hlt : rec.height < status.height := by rw [← r1]; exact hh
        generalize hW : (⟨_, _⟩ : World T) = W at hd ⊢
        have hts : trigsOf W.log = [stTrigger (.newHeight status.toSMR) [] none INIT_ROUND status.height] := by
          rw [← hW]
          simp [trigsOf, List.filterMap_append, List.filterMap_map, Function.comp_def]
        have hst : W.st.height = status.height := by rw [← hW]; rfl
        unfold NodeSys.started at hd ⊢
        rw [hts] at hd ⊢
        refine lead_drain1 ⟨?_, ?_, ?_, ?_⟩ (by simp [NotWal, stTrigger]) (by simp [stTrigger, INIT_ROUND]) (by simp [NodeSys.absorb, NodeSys.fresh]) rfl hd
        · intro q hq'; have := hle h2 q hq'; show q.1 ≤ W.st.height; omega
        · intro _ q hq'; left; have := hle h2 q hq'; show q.1 < W.st.height; omega
        · intro t ht st hst' _ q hq'
          have : t = stTrigger (.newHeight status.toSMR) [] none INIT_ROUND status.height := by simpa using ht
          subst this
          have : st = status.toSMR := by simpa [stTrigger] using hst'.symm
          subst this
          have := hle h2 q hq'; show q.1 < status.height; omega
        · intro _ heq
          exfalso
          have : 0 = W.st.height := heq
          omega
  | brake b rec pr hp hl hdec hx hst w1 o hw =>
    obtain ⟨h1, h2⟩ := known rec b hp hl hdec
    obtain ⟨r1, r2, r3, r4⟩ := restored_pos S rec pr
    have hts : ∀ t ∈ trigsOf w1.log, t.triggerType = .continueRound ∧ t.height ≠ 0 := by
      intro t ht
      obtain ⟨a, b⟩ := o.trigs t (mem_trigsOf.1 ht)
      exact ⟨a, by rw [b, r1]; exact h1⟩
    rcases hw with rfl | rfl
    · have hdr := drain_idle (trigsOf w.log) [] ({ (NodeSys.fresh addr p log).absorb w.log with
        sys := { (NodeSys.fresh addr p log : NodeSys T).sys with trigQ := [] }, st := w.st, down := false } : NodeSys T)
        hts (by rw [List.append_nil]; exact hd)
      rw [List.append_nil] at hdr
      unfold NodeSys.started
      rw [hdr]
      exact quiet w.st (by rw [o.same.height, r1]; exact hle h2) (fun _ => by rw [o.same.height, o.round, r1, r2]; exact h2)
        (fun _ h => absurd ((o.same.height.trans r1).symm.trans h) h1) _ rfl rfl rfl (by simp [NodeSys.drain])
    · have hts2 : trigsOf (w1.log ++ [.trigger (walTrig rec.intoSmrBase)]) = trigsOf w1.log ++ [walTrig rec.intoSmrBase] := by
        rw [trigsOf_append]; rfl
      unfold NodeSys.started at hd ⊢
      dsimp only at hd ⊢
      rw [hts2] at hd ⊢
      have hdr := drain_idle _ _ _ hts hd
      rw [hdr]
      obtain ⟨evt, hdw⟩ := drain_wal ({ (NodeSys.fresh addr p log).absorb (w1.log ++ [.trigger (walTrig rec.intoSmrBase)]) with
        sys := { (NodeSys.fresh addr p log : NodeSys T).sys with trigQ := [] }, st := w1.st, down := false } : NodeSys T)
        rec.intoSmrBase (by simp [WalInfo.intoSmrBase, hst])
      rw [hdw]
      exact resumed w1.st rec.intoSmrBase (o.same.height.trans r1) (o.round.trans r2) h2 _ rfl rfl rfl rfl
  | resume b rec pr hp hl hdec hx hst hsb hw =>
    subst hw
    obtain ⟨h1, h2⟩ := known rec b hp hl hdec
    obtain ⟨r1, r2, r3, r4⟩ := restored_pos S rec pr
    obtain ⟨evt, hdw⟩ := drain_wal ({ (NodeSys.fresh addr p log).absorb [.trigger (walTrig rec.intoSmrBase)] with
        sys := { (NodeSys.fresh addr p log : NodeSys T).sys with trigQ := [] }, st := S.restored rec pr, down := false } : NodeSys T)
        rec.intoSmrBase (by simp [WalInfo.intoSmrBase, hst])
    have : NodeSys.started addr p log ⟨S.restored rec pr, [.trigger (walTrig rec.intoSmrBase)]⟩ = _ := hdw
    rw [this]
    exact resumed (S.restored rec pr) rec.intoSmrBase r1 r2 h2 _ rfl rfl rfl rfl

theorem start_ordered {addr : Address} {p : StartParams} {log : List (Effect T)} {e : Env T}
    (hkn : Known e (p.list.map Node.address |>.contains addr) p.initHeight (slotsOf log)) (hg : Ordered log) (c : Option Nat) :
    Ordered (log ++ cutTo c (runArm .start e ⟨State.new addr p.initHeight p.interval p.list, []⟩).2.log) := by
  have hsl : slotsOf (runArm .start e ⟨State.new addr p.initHeight p.interval p.list, []⟩).2.log = [] :=
    arm_slots (by rintro r lr lp f ⟨h, ni, nc, h'⟩; cases h')
  refine ordered_quiet hg hsl (fun x hx q hq => ?_) c
  have hx := mem_saved.1 hx
  have o := start_out e (State.new addr p.initHeight p.interval p.list)
  generalize hS : State.new addr p.initHeight p.interval p.list = S at *
  have hpow : S.consensusPower = (p.list.map Node.address |>.contains addr) := by
    rw [← hS]
    have := update_contains p.list addr
    simp only [State.new]
    rw [Bool.eq_iff_iff, this, List.contains_iff_mem]
  rw [← hpow] at hkn
  have known : ∀ (w : WalInfo T) b, S.consensusPower = true → e.walLoad = some (some b) → decWalInfo b = .ok w →
      ∀ q ∈ slotsOf log, le q (w.height, w.round) := by
    intro w b hp hl hw
    rcases hkn with ⟨h, _⟩ | ⟨_, h, _⟩ | ⟨_, w', b', h1, h2, h3, h4⟩
    · rw [hp] at h; cases h
    · rw [hl] at h; cases h
    · rw [hl] at h1; cases h1; rw [hw] at h2; cases h2; exact h4
  generalize hW : (runArm Input.start e ⟨S, []⟩).2 = W at *
  cases o with
  | idle hw h => subst hw; cases hx
  | fresh hp hl hh hw => subst hw; simp [obs, obsOf, walTrig, stTrigger] at hx
  | noLeader b rec x hp hl hdec hx' hw => subst hw; cases hx
  | noLock b rec pr hp hl hdec hx' hst hlk hw => subst hw; cases hx
  | commit b rec pr lock hp hl hdec hx' hst hlk o =>
    have h2 := known rec b hp hl hdec q hq
    obtain ⟨r1, r2, r3, r4⟩ := restored_pos S rec pr
    rcases commit_obs o with ⟨m1, m2, m3, m4⟩ | ⟨m1, m2, m3⟩
    · rw [m4 x hx, r1, r2]; exact h2
    · rcases m3 x hx with m3 | m3
      · rw [m3, r1, r2]; exact h2
      · rw [r1] at m1
        left
        simp only [le] at h2
        simp only [recSlot]
        omega
  | brake b rec pr hp hl hdec hx' hst w1 o hw =>
    have h2 := known rec b hp hl hdec q hq
    obtain ⟨r1, r2, r3, r4⟩ := restored_pos S rec pr
    have hob : obs W.log = obs w1.log := by
      rcases hw with hw | hw
      · rw [hw]
      · rw [hw]; dsimp only; rw [obs_append]; simp [obs, obsOf, walTrig, stTrigger, releasedVote]
    rw [hob] at hx
    rcases o.out with ho | ⟨lk, _, ho⟩ <;> rw [ho] at hx
    · cases hx
    · simp at hx
      subst hx
      simp only [recSlot, walRec, r1, r2]
      exact h2
  | resume b rec pr hp hl hdec hx' hst hsb hw => subst hw; simp [obs, obsOf, walTrig, stTrigger] at hx

/-! ## Whole lives -/

/-- The invariant of a node's life. -/
structure Inv (n : NodeSys T) : Prop where
  votes : NodeInv n
  ordered : Ordered n.log
  lead : n.down = false → Lead (slotsOf n.log) n

/-- Steps of the machine, the timer and the verifications. -/
theorem lead_other {k : Nat} {p0 : Pos} {addr : Address} {n n' : NodeSys T} {a : NAct T} {P : List Slot} (h : Lead P n) (hl : Live k p0 n)
    (ok : RoundSmall n a) (ha : n.act addr a = some n') (h1 : ∀ x e c, a ≠ .arm x e c) (h2 : ∀ p e c, a ≠ .start p e c)
    (h3 : a ≠ .crash) : Lead P n' := by
  cases a with
  | start p e c => exact absurd rfl (h2 p e c)
  | crash => exact absurd rfl h3
  | arm x e c => exact absurd rfl (h1 x e c)
  | verifyDone c i =>
    simp only [NodeSys.act] at ha
    split at ha
    · cases ha
    · split at ha
      · cases ha
      · cases ha; exact lead_frame h rfl rfl rfl (fun t ht => .inl ht)
  | checkDone i okb =>
    simp only [NodeSys.act] at ha
    split at ha
    · cases ha
    · split at ha
      · cases ha
      · cases ha; exact lead_frame h rfl rfl rfl (fun t ht => .inl ht)
  | smr =>
    simp only [NodeSys.act] at ha
    split at ha
    · cases ha
    · split at ha
      · cases ha
      · rename_i t q hq
        split at ha
        · cases ha
        · rename_i sys hs
          cases ha
          have hw := (hl.trig t (by rw [hq]; simp)).1
          simp only [TimerSys.act, hq] at hs
          split at hs
          · cases hs; exact lead_smr h hw hl.evLe hq (ok t q hq) rfl rfl rfl rfl
          · cases hs; exact lead_smr h hw hl.evLe hq (ok t q hq) rfl rfl rfl rfl
          · cases hs
          · cases hs
  | set =>
    simp only [NodeSys.act] at ha
    split at ha
    · cases ha
    · obtain ⟨sys, hs, rfl⟩ := Option.map_eq_some_iff.1 ha
      simp only [TimerSys.act] at hs
      split at hs
      · cases hs
      · cases hs
      · cases hs; exact lead_frame h rfl rfl rfl (fun t ht => .inl ht)
  | expire i =>
    simp only [NodeSys.act] at ha
    split at ha
    · cases ha
    · obtain ⟨sys, hs, rfl⟩ := Option.map_eq_some_iff.1 ha
      simp only [TimerSys.act] at hs
      split at hs
      · cases hs
      · cases hs; exact lead_frame h rfl rfl rfl (fun t ht => .inl ht)
  | fire i =>
    simp only [NodeSys.act] at ha
    split at ha
    · cases ha
    · obtain ⟨sys, hs, rfl⟩ := Option.map_eq_some_iff.1 ha
      simp only [TimerSys.act] at hs
      split at hs
      · cases hs
      · cases hs
        refine lead_frame h rfl rfl rfl (fun t ht => ?_)
        simp only [List.mem_append, Option.mem_toList] at ht
        rcases ht with ht | ht
        · exact .inl ht
        · exact .inr (timer_trigger ht).2

theorem inv_step {addr : Address} {n n' : NodeSys T} {a : NAct T} (h : Inv n)
    (ok : InSync n a ∧ RoundSmall n a ∧ StartOk addr n a) (ha : n.act addr a = some n') : Inv n' := by
  have hv := node_inv h.votes ok ha
  obtain ⟨ok1, ok2, ok3⟩ := ok
  have up : (∀ p e c, a ≠ .start p e c) → a ≠ .crash → n.down = false := by
    intro h1 h2
    cases hd : n.down with
    | false => rfl
    | true =>
      cases a with
      | start p e c => exact absurd rfl (h1 p e c)
      | crash => exact absurd rfl h2
      | _ => simp [NodeSys.act, hd] at ha
  cases a with
  | start p e cut =>
    obtain ⟨hd, hc⟩ := start_act ha
    have hkn := known_start h.ordered ok3
    have hga := start_ordered hkn h.ordered
    rcases hc with ⟨h1, h2⟩ | ⟨h1, h2, h3, h4⟩
    · refine ⟨hv, by rw [h2]; exact hga cut, fun hf => by rw [h1] at hf; cases hf⟩
    · refine ⟨hv, by rw [h3]; exact hga none, fun hf => ?_⟩
      have hs : slotsOf n'.log = slotsOf n.log := by
        rw [h3, slotsOf_append, arm_slots (by rintro r lr lp f ⟨h, ni, nc, h'⟩; cases h'), List.append_nil]
      rw [hs]
      rw [h4] at hf ⊢
      exact start_lead hkn (start_out e _) hf
  | crash =>
    simp only [NodeSys.act, Option.some.injEq] at ha
    subst ha
    exact ⟨hv, h.ordered, by simp⟩
  | arm x e cut =>
    have hd := up (by simp) (by simp)
    simp only [NodeSys.act, hd, Bool.false_eq_true, if_false] at ha
    split at ha
    · cases ha
    · rename_i i n1 ht
      cases ha
      obtain ⟨l1, l2⟩ := lead_arm (h.lead hd) (h.votes.live hd) ok1 ht h.ordered (cut := cut)
      refine ⟨hv, ?_, l1⟩
      have : (n1.took cut (runArm i e ⟨n.st, []⟩)).log = n.log ++ cutTo cut (runArm i e ⟨n.st, []⟩).2.log := by
        rw [← (take_spec ht).2.1]; rfl
      rw [this]
      exact l2
  | _ =>
    have hd := up (by simp) (by simp)
    have hl := lead_other (h.lead hd) (h.votes.live hd) ok2 ha (by simp) (by simp) (by simp)
    obtain ⟨e1, -⟩ := live_other (h.votes.live hd) ok2 ha (by simp) (by simp) (by simp)
    exact ⟨hv, by rw [e1]; exact h.ordered, fun _ => by rw [e1]; exact hl⟩

theorem inv_new (addr : Address) : Inv (NodeSys.new addr : NodeSys T) :=
  ⟨nodeInv_new addr, ⟨by simp [NodeSys.new, NodeSys.fresh, slotsOf, proposalsOf], by simp [NodeSys.new, NodeSys.fresh, slotsOf, proposalsOf]⟩, by simp [NodeSys.new, NodeSys.fresh]⟩

end Single
end Overlord
