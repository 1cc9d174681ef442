import Verif.Proofs.GoodNode2

/-! Inputs of the State of a node in a good round. -/

set_option linter.unusedSimpArgs false
set_option linter.unusedVariables false
set_option linter.unusedSectionVars false

namespace Overlord.Good
open M Spec

variable {T : Type} {g : GoodRound T} {P P' : Option (SignedProposal T)} {q q' : VoteType → Prop} {a : Address} {D : OverlordMsg T → Prop}
  {L L' : List (Effect T)}

theorem Prog.took {n n1 : NodeSys T} {w : World T} (h : Prog g P a n) (e1 : n1.sys = n.sys) (e3 : n1.checking = n.checking)
    (hG : Grow g n.st w.st) (hi : Inv0 g P w.st)
    (hsup : Sup g P a w.st → Sup g P a n.st ∨ (Known g w.st ∧ tP g ∈ trigsOf w.log ∧ .spawnCheck g.height g.round g.hash g.block ∈ w.log))
    (hr : (⟨g.height, g.round, g.hash, true⟩ : VerifyResp) ∈ n.respQ → (⟨g.height, g.round, g.hash, true⟩ : VerifyResp) ∈ n1.respQ ∨ Full g w.st) : Prog g P a (n1.took none (.ok true, w)) := by
  intro hs
  have htr : (n1.took none (.ok true, w)).sys.trigQ = n.sys.trigQ ++ trigsOf w.log := by
    show n1.sys.trigQ ++ _ = _
    rw [e1]; rfl
  have hsmr : (n1.took none (.ok true, w)).sys.smr = n.sys.smr := by
    show n1.sys.smr = _
    rw [e1]
  have hck : (n1.took none (.ok true, w)).checking = n.checking ++ w.log.filterMap (fun x => match x with | .spawnCheck h r hash b => some (h, r, hash, b) | _ => none) := by
    show n1.checking ++ _ = _
    rw [e3]; rfl
  unfold Checks
  rw [htr, hsmr, hck]
  show Known g w.st ∧ _ ∧ (Full g w.st ∨ _ ∨ _ ∈ n1.respQ)
  rcases hsup hs with h1 | ⟨h1, h2, h3⟩
  · obtain ⟨k1, k2, k3⟩ := h h1
    refine ⟨hG.known hi k1, k2.imp (fun h => List.mem_append.2 (.inl h)) id, ?_⟩
    rcases k3 with k3 | k3 | k3
    · exact .inl (hG.full k3)
    · exact .inr (.inl (List.mem_append.2 (.inl k3)))
    · rcases hr k3 with h | h
      · exact .inr (.inr h)
      · exact .inl h
  · refine ⟨h1, .inl (List.mem_append.2 (.inr h2)), .inr (.inl ?_)⟩
    exact List.mem_append.2 (.inr (List.mem_filterMap.2 ⟨_, h3, rfl⟩))

theorem shape_took {n n1 : NodeSys T} {w : World T} (h : Entered g P a n ∨ Early g P a n) (e : n1.stQ = n.stQ)
    (hG : Grow g n.st w.st) (hk : Keep n.st w.st) (hi : Inv0 g P n.st) (hi' : Inv0 g P w.st) :
    Entered g P a (n1.took none (.ok true, w)) ∨ Early g P a (n1.took none (.ok true, w)) := by
  obtain ⟨k1, k2, k3⟩ := hk
  rcases h with h | ⟨nri, post, h1, h2, h3, h4⟩
  · refine .inl ⟨k1.trans h.round, k3.trans h.leaderAddress, k2.trans h.isLeader, h.prop, fun ev he => (h.evs ev ?_).mono hG hi hi'⟩
    rw [← e]; exact he
  · refine .inr ⟨nri, post, e.trans h1, h2.mono hG hi hi', h3, fun ev he => (h4 ev he).mono hG hi hi'⟩

theorem shape_tail {n n1 : NodeSys T} {w : World T} {ev : SMREvent} (h : Entered g P a n) (e : n.stQ = ev :: n1.stQ)
    (hG : Grow g n.st w.st) (hk : Keep n.st w.st) (hi : Inv0 g P n.st) (hi' : Inv0 g P w.st) :
    Entered g P a (n1.took none (.ok true, w)) := by
  obtain ⟨k1, k2, k3⟩ := hk
  refine ⟨k1.trans h.round, k3.trans h.leaderAddress, k2.trans h.isLeader, h.prop, fun ev he => (h.evs ev ?_).mono hG hi hi'⟩
  rw [e]; exact List.mem_cons.2 (.inr he)

section
variable [ContentCodec T] [DecidableEq T]

/-- Inputs that are not about proposals or heights leave the proposals alone. -/
theorem props_same {e : Env T} {i : Input T} {s : State T} {w : World T} {r : Except Err Bool} (hr : runArm i e ⟨s, []⟩ = (r, w))
    (h1 : ∀ sp, i ≠ .verified (.signedProposal sp)) (h2 : ∀ h r lr lp f ni nc, i ≠ .event (.newRoundInfo h r lr lp f ni nc))
    (h3 : ∀ st, i ≠ .verified (.richStatus st)) (h4 : i ≠ .start) (h5 : ∀ h, i ≠ .event (.commit h)) :
    w.st.proposals = s.proposals := by
  have : (runArm i e ⟨s, []⟩).2.st.proposals = s.proposals := by
    refine arm_inv (P := fun w => w.st.proposals = s.proposals) rfl ?_
    intro w eff s' hp hm
    have hpi : ∀ x sp, ¬ ProposalInput i x sp := by
      rintro x sp (h | ⟨⟨r, lr, lp, f, k, ni, nc, h⟩, _⟩)
      · exact h1 _ h
      · exact h2 _ _ _ _ _ _ _ h
    cases hm with
    | storeProposal sp ps hi => exact absurd hi (hpi _ _)
    | acceptProposal sp ps hi => exact absurd hi (hpi _ _)
    | adopt st hsv hi =>
      rcases hi with hi | hi | ⟨h, hi⟩
      · exact absurd hi (h3 _)
      · exact absurd hi h4
      · exact absurd hi (h5 _)
    | _ => exact hp
  rw [hr] at this
  exact this

/-- The order to vote. -/
def orderEv (ty : VoteType) (k r : Nat) (x : Hash) (lr : Option Nat) : SMREvent :=
  match ty with
  | .prevote => .prevoteVote k r x lr
  | .precommit => .precommitVote k r x lr

theorem Sup.back {s s' : State T} (hp : s'.proposals = s.proposals) (hr : s'.round = s.round) (h : Sup g P a s') : Sup g P a s := by
  unfold Sup at *
  rwa [hp, hr] at h

section
variable (hg : g.Ok) {e : Env T} (he : GoodEnv g e)
include hg he

/-- The result of a block check is handled. -/
theorem NodeIn.resp {n n' : NodeSys T} (h : NodeIn g P q a D L n) (hx : n.act a (.arm .resp e none) = some n') :
    ∃ eff, n'.log = n.log ++ eff ∧ NodeIn g P (newQ g q eff) a D (L ++ eff) n' := by
  have hc := h.core
  unfold NodeSys.act at hx
  rw [hc.up] at hx
  simp only [Bool.false_eq_true, if_false, NodeSys.take] at hx
  cases hrq : n.respQ with
  | nil => rw [hrq] at hx; cases hx
  | cons r rs =>
    rw [hrq] at hx
    simp only [Option.some.injEq] at hx
    rcases hc.resp r (by rw [hrq]; simp) with ⟨h1, h2, h3⟩ | h1
    · subst h1
      obtain ⟨w, hr, eff, k1, k2, k3, k4, k5⟩ := run_resp hc.st.power (ok_resp (l := []) hg he hc.st h3 h2)
      rw [hr] at hx
      have heff : w.log = eff := k1
      subst heff
      subst hx
      have hps := props_same hr (by simp) (by simp) (by simp) (by simp) (by simp)
      refine ⟨w.log, rfl, ?_, ?_, ?_⟩
      · refine hc.took rfl rfl rfl k2 k3 (fun _ h => h.elim) (fun ev he => .inl he) (fun m hm _ => .inl hm) (fun _ h => h) (fun x hx => ?_)
        rw [hrq]; exact List.mem_cons.2 (.inr hx)
      · exact h.prog.took rfl rfl k3.grow k2.toInv0 (fun hs => .inl (hs.back hps k4.1)) (fun _ => .inr k5)
      · exact shape_took h.shape rfl k3.grow k4 hc.st.toInv0 k2.toInv0
    · have hne : r.height ≠ n.st.height := by rw [hc.st.height]; omega
      obtain ⟨w, hr, hw⟩ := run_resp (r := r) (e := e) (R := fun w => w = ⟨n.st, []⟩) hc.st.power (by
        unfold OkW handleResp
        rw [wp_bind, wp_get]
        dsimp only
        rw [if_pos hne, wp_pure])
      subst hw
      rw [hr] at hx
      subst hx
      have hpo : Post g P (fun _ => False) n.st [] n.st := Post.silent (.refl _) (fun _ h => h) id (by simp)
      refine ⟨[], rfl, ?_, ?_, ?_⟩
      · refine hc.took (w := ⟨n.st, []⟩) (src := fun _ => False) rfl rfl rfl hc.st hpo (fun _ h => h.elim) (fun ev he => .inl he) (fun m hm _ => .inl hm) (fun _ h => h) (fun x hx => ?_)
        rw [hrq]; exact List.mem_cons.2 (.inr hx)
      · refine h.prog.took rfl rfl (.refl _) hc.st.toInv0 (fun hs => .inl hs) (fun hm => .inl ?_)
        rw [hrq] at hm
        rcases List.mem_cons.1 hm with h2 | h2
        · subst h2
          exact absurd h1 (Nat.lt_irrefl _)
        · exact h2
      · exact shape_took h.shape rfl (.refl _) (.refl _) hc.st.toInv0 hc.st.toInv0

/-- A verified message is handled. -/
theorem NodeIn.verified {n n' : NodeSys T} (h : NodeIn g P q a D L n) (hP : ∀ sp, P = some sp → IsProp g sp)
    (hD : ∀ m, D m → m.getHeight? = some g.height ∧ msgRound m = g.round ∧ OfLive g m)
    (hx : n.act a (.arm .verified e none) = some n') :
    ∃ eff, n'.log = n.log ++ eff ∧ NodeIn g P (newQ g q eff) a D (L ++ eff) n' := by
  have hc := h.core
  unfold NodeSys.act at hx
  rw [hc.up] at hx
  simp only [Bool.false_eq_true, if_false, NodeSys.take] at hx
  cases hvq : n.verifiedQ with
  | nil => rw [hvq] at hx; cases hx
  | cons m ms =>
    rw [hvq] at hx
    simp only [Option.some.injEq] at hx
    have hm := hc.ver m (by rw [hvq]; simp)
    have fin : ∀ (w : World T) (src : VoteType → Prop), runArm (.verified m) e ⟨n.st, []⟩ = (.ok true, w) → Inv g P w.st → Post g P src n.st w.log w.st →
        (∀ ty, src ty → q ty) → Keep n.st w.st → (D m → Taken g w.st m) →
        (Sup g P a w.st → Sup g P a n.st ∨ (Known g w.st ∧ tP g ∈ trigsOf w.log ∧ .spawnCheck g.height g.round g.hash g.block ∈ w.log)) →
        ∃ eff, n'.log = n.log ++ eff ∧ NodeIn g P (newQ g q eff) a D (L ++ eff) n' := by
      intro w src hr k2 k3 hsrc k4 k5 k6
      rw [hr] at hx
      subst hx
      refine ⟨w.log, rfl, ?_, ?_, ?_⟩
      · refine hc.took rfl rfl rfl k2 k3 hsrc (fun ev he => .inl he) (fun m' hm' hd => ?_) (fun x hx => ?_) (fun _ h => h)
        · rw [hvq] at hm'
          rcases List.mem_cons.1 hm' with h1 | h1
          · subst h1; exact .inr (k5 hd)
          · exact .inl h1
        · rw [hvq]; exact List.mem_cons.2 (.inr hx)
      · exact h.prog.took rfl rfl k3.grow k2.toInv0 k6 (fun h => .inl h)
      · exact shape_took h.shape rfl k3.grow k4 hc.st.toInv0 k2.toInv0
    rcases hm with ⟨sp, rfl, h1⟩ | ⟨ty, qc, rfl, h1, h2, h3⟩ | ⟨sv, rfl, h1, h2⟩ | h1
    · obtain ⟨w, hr, eff, k1, k2, k3, k4, k5, k6⟩ := run_verified (msg_ok (m := .signedProposal sp) hc.st.power rfl (ok_prop (l := []) hg he h1 (hP sp h1) hc.st))
      have heff : w.log = eff := k1
      subst heff
      refine fin w _ hr k2 k3 (fun _ h => h.elim) k4 (fun _ => k5) fun hs => ?_
      rcases hs with ⟨_, h6⟩ | h6
      · exact .inr (k6 (k4.1.symm.trans h6))
      · exact .inl (.inr h6)
    · obtain ⟨w, hr, eff, k1, k2, k3, k4, k5⟩ := run_verified (msg_ok (m := .aggregatedVote qc) hc.st.power rfl (ok_qc (l := []) hg he h3 hc.st h1))
      have heff : w.log = eff := k1
      subst heff
      have hps := props_same hr (by simp) (by simp) (by simp) (by simp) (by simp)
      refine fin w _ hr k2 k3 (fun t h => h ▸ h2) k4 (fun _ => ?_) (fun hs => .inl (hs.back hps k4.1))
      show HasQc g w.st qc.voteType
      rw [h1.2.2.1]; exact k5
    · obtain ⟨w, hr, eff, k1, k2, k3, k4, k5⟩ := run_verified (msg_ok (m := .signedVote sv) hc.st.power rfl (ok_vote (l := []) hg he hc.st h1 (fun hl => (h2 hl).1) (fun hl => (h2 hl).2)))
      have heff : w.log = eff := k1
      subst heff
      have hps := props_same hr (by simp) (by simp) (by simp) (by simp) (by simp)
      exact fin w _ hr k2 k3 (fun t h => h.elim) k4 (fun hd => k5 ((hD _ hd).2.2.1 sv rfl)) (fun hs => .inl (hs.back hps k4.1))
    · obtain ⟨w, hr, k1, k2, k3⟩ := run_verified (ok_idle hg he hc.st h1)
      have hi : Inv g P w.st := k2.inv hc.st (by rw [k3.1]; exact hc.st.low) (by rw [k3.1]; exact hc.st.near)
      have hp : Post g P (fun _ => False) n.st w.log w.st := k2.post (Nat.le_of_eq k3.1.symm) (by rw [k1]; simp)
      refine fin w _ hr hi hp (fun t h => h.elim) k3 (fun hd => ?_) (fun hs => .inl ?_)
      · obtain ⟨d1, d2, d3⟩ := hD _ hd
        obtain ⟨-, -, h3 | h3 | ⟨h3, h4, h5⟩⟩ := h1
        · exact absurd d1 h3
        · have := hc.st.low
          omega
        · cases m with
          | signedVote sv => exact absurd rfl (h5 sv)
          | signedProposal sp => exact (h4.elim (fun h => h d2) fun h => h (d3.2 sp rfl)).elim
          | aggregatedVote qc => exact h4.elim
          | _ => trivial
      · unfold Sup at *
        rwa [k2.prop, k3.1] at hs

theorem run_nri {k r : Nat} {lr : Option Nat} {lp : Option Hash} {f : FromWhere} {ni nc} {s : State T} {R : World T → Prop}
    (hp : s.consensusPower = true) (hs : s.stopped = false)
    (h : OkW (handleNewRound r lr lp f) e ⟨s, []⟩ R) : ∃ w, runArm (.event (.newRoundInfo k r lr lp f ni nc)) e ⟨s, []⟩ = (.ok true, w) ∧ R w :=
  run_event hp hs (OkW.logged h)

theorem run_order {k r : Nat} {x : Hash} {lr : Option Nat} {ty : VoteType} {s : State T} {R : World T → Prop}
    (hp : s.consensusPower = true) (hs : s.stopped = false)
    (h : OkW (handleVoteEvent x ty lr) e ⟨s, []⟩ R) :
    ∃ w, runArm (.event (orderEv ty k r x lr)) e ⟨s, []⟩ = (.ok true, w) ∧ R w := by
  cases ty <;> exact run_event hp hs (OkW.logged h)

theorem run_commit {x : Hash} {s : State T} {R : World T → Prop}
    (hp : s.consensusPower = true) (hs : s.stopped = false)
    (h : OkW (handleCommit x) e ⟨s, []⟩ R) :
    ∃ w, runArm (.event (.commit x)) e ⟨s, []⟩ = (.ok true, w) ∧ R w :=
  run_event hp hs (OkW.logged h)

/-- What a step of a node does to the network. -/
def Goes (g : GoodRound T) (P : Option (SignedProposal T)) (q : VoteType → Prop) (a : Address) (D : OverlordMsg T → Prop)
    (L : List (Effect T)) (n n' : NodeSys T) : Prop :=
  ∃ eff P', n'.log = n.log ++ eff ∧ (∀ sp, P = some sp → P' = some sp) ∧
    (P' ≠ P → a = g.leader ∧ ∃ sp, P' = some sp ∧ IsProp g sp ∧ .broadcast (.signedProposal sp) ∈ eff) ∧
    (NodeIn g P' (newQ g q eff) a D (L ++ eff) n' ∨ NodeOut g P' (newQ g q eff) a (L ++ eff) n')

omit hg he [ContentCodec T] [DecidableEq T] in
theorem Goes.stay {n n' : NodeSys T} (h : ∃ eff, n'.log = n.log ++ eff ∧ NodeIn g P (newQ g q eff) a D (L ++ eff) n') :
    Goes g P q a D L n n' := by
  obtain ⟨eff, h1, h2⟩ := h
  exact ⟨eff, P, h1, fun _ h => h, fun h => absurd rfl h, .inl h2⟩

omit hg he [ContentCodec T] [DecidableEq T] in
theorem Goes.silent {n n' : NodeSys T} (h : n'.log = n.log ∧ NodeIn g P q a D L n') : Goes g P q a D L n n' := by
  refine ⟨[], P, by simp [h.1], fun _ h => h, fun h => absurd rfl h, .inl ?_⟩
  rw [List.append_nil]
  exact h.2.mono (fun _ h => h) (fun _ h => .inl h) (fun _ => rfl)

/-- An event of the voting state machine is handled. -/
theorem NodeIn.event (hE : Encodes T) {n n' : NodeSys T} (h : NodeIn g P q a D L n) (hP : ∀ sp, P = some sp → IsProp g sp)
    (hx : n.act a (.arm .event e none) = some n') : Goes g P q a D L n n' := by
  have hc := h.core
  have hp := hc.st.power
  have hs := hc.st.running
  unfold NodeSys.act at hx
  rw [hc.up] at hx
  simp only [Bool.false_eq_true, if_false, NodeSys.take] at hx
  cases hsq : n.stQ with
  | nil => rw [hsq] at hx; cases hx
  | cons ev evs =>
    rw [hsq] at hx
    simp only [Option.some.injEq] at hx
    have hsub : ∀ {p : SMREvent → Prop}, p ev → ∀ ev' ∈ n.stQ, ev' ∈ evs ∨ p ev' := by
      intro p hp ev' hev
      rw [hsq] at hev
      rcases List.mem_cons.1 hev with h1 | h1
      · subst h1; exact .inr hp
      · exact .inl h1
    rcases h.shape with hsh | ⟨nri, post, h1, h2, h3, h4⟩
    · have hev := hsh.evs ev (by rw [hsq]; simp)
      have order : ∀ ty lr, LockStored n.st lr → P ≠ none → (∀ t, Order t ev → t = ty) → ¬ IsCommit ev →
          (∃ k r, ev = orderEv ty k r g.hash lr) → Goes g P q a D L n n' := by
        rintro ty lr hls hPn ho hnc ⟨k, r, rfl⟩
        obtain ⟨w, hr, eff, k1, k2, k3, k4, k5, k6⟩ := run_order (k := k) (r := r) hg he hp hs
          (ok_order (ty := ty) (lr := lr) hg he hE hPn hc.st hsh.round hsh.leaderAddress (by rw [hc.addr]; exact hsh.isLeader) hls)
        have heff : w.log = eff := k1
        subst heff
        have hps := props_same hr (by simp) (by cases ty <;> simp [orderEv]) (by simp) (by simp) (by cases ty <;> simp [orderEv])
        rw [hr] at hx
        subst hx
        refine Goes.stay ⟨w.log, rfl, ?_, ?_, ?_⟩
        · refine hc.took rfl rfl rfl k2 k3 (fun _ h => h.elim) (hsub ⟨fun t ht => ?_, fun h => absurd h hnc⟩) (fun m hm _ => .inl hm) (fun _ h => h) (fun _ h => h)
          rw [ho t ht]
          rw [hc.addr] at k5 k6
          by_cases ha : a = g.leader
          · exact .inr ⟨ha, k6 ha⟩
          · obtain ⟨sv, h5, h6, h7⟩ := k5 ha
            exact .inl ⟨ha, sv, h5, h6, List.mem_append.2 (.inr h7)⟩
        · exact h.prog.took rfl rfl k3.grow k2.toInv0 (fun hs => .inl (hs.back hps k4.1)) (fun h => .inl h)
        · exact .inl (shape_tail hsh hsq k3.grow k4 hc.st.toInv0 k2.toInv0)
      cases ev with
      | prevoteVote k r x lr =>
        obtain ⟨rfl, h2, h3⟩ := hev
        exact order .prevote lr h2 h3 (fun t h => h) id ⟨k, r, rfl⟩
      | precommitVote k r x lr =>
        obtain ⟨rfl, h2, h3⟩ := hev
        exact order .precommit lr h2 h3 (fun t h => h) id ⟨k, r, rfl⟩
      | commit x =>
        obtain ⟨rfl, h2, h3⟩ := hev
        obtain ⟨w, hr, c, res, k1, k2, k3, k4, k5, k6, k7⟩ := run_commit hg he hp hs (ok_commit hg he hE hc.st h3 h2)
        rw [hr] at hx
        subst hx
        have hcm : Comm g (L ++ w.log) := ⟨c, res, List.mem_append.2 (.inr k1), k2, k3, k4⟩
        have hsd : Sends g P a w.log := ⟨fun m hm => absurd hm (k6 m), fun d m hm => absurd hm (k7 d m)⟩
        rcases k5 with ⟨h5, b, h6, h7⟩ | h5
        · refine Goes.stay ⟨w.log, rfl, ?_, ?_, ?_⟩
          · have hpost : Post g P (fun _ => False) n.st w.log w.st := by
              rw [h5]
              have htr : trigsOf w.log = [] := by
                rw [h6]
                cases b <;> first | exact h7.elim | rfl
              refine ⟨.refl _, by rw [htr]; simp, ?_, fun m hm => absurd hm (k6 m), fun d m hm => absurd hm (k7 d m), ?_, ?_, fun h1 h2 => .inl ⟨h1, h2⟩, fun h1 h2 => .inl ⟨h1, h2⟩, fun ty h => .inl h⟩
              all_goals
                rw [h6]
                cases b <;> first | exact h7.elim | simp
            refine hc.took rfl rfl rfl (by rw [h5]; exact hc.st) hpost (fun _ h => h.elim) (hsub ⟨fun t ht => ht.elim, fun _ => hcm⟩) (fun m hm _ => .inl hm) (fun _ h => h) (fun _ h => h)
          · exact h.prog.took rfl rfl (by rw [h5]; exact .refl _) (by rw [h5]; exact hc.st.toInv0) (fun hs => .inl (by rw [← h5]; exact hs)) (fun h => .inl h)
          · exact .inl (shape_tail hsh hsq (by rw [h5]; exact .refl _) (by rw [h5]; exact .refl _) hc.st.toInv0 (by rw [h5]; exact hc.st.toInv0))
        · refine ⟨w.log, P, rfl, fun _ h => h, fun h => absurd rfl h, .inr ⟨h5, hcm, .inl (hc.has _ h2), fun hPn => (hc.st.calm hPn).1 _ h2, hc.sends.app hsd⟩⟩
      | _ => exact hev.elim
    · rw [hsq] at h1
      cases h1
      cases ev with
      | newRoundInfo k r lr lp f ni nc =>
        obtain ⟨rfl, h5, h6, h7, h8⟩ := h2
        by_cases ha : a = g.leader
        · have hPn := h3 ha
          subst hPn
          obtain ⟨h9, h10⟩ := h8 ha
          obtain ⟨w, hr, sp, hip, eff, k1, k2, k3, ⟨k4, k5, k6⟩, k7, k8, k9, k10⟩ := run_nri (k := k) (ni := ni) (nc := nc) hg he hp hs
            (ok_lead hg he hE hc.st (hc.addr.trans ha) h5 h6 h7 h9 h10)
          have heff : w.log = eff := k1
          subst heff
          rw [hr] at hx
          subst hx
          have hc' : Core g (some sp) q a D L n := hc.mono (fun _ h => by cases h) (fun _ h => h)
          refine ⟨w.log, some sp, rfl, fun _ h => (by cases h), fun _ => ⟨ha, sp, rfl, hip, k10⟩, .inl ⟨?_, ?_, ?_⟩⟩
          · exact hc'.took rfl rfl rfl k2 k3 (fun _ h => h.elim) (hsub ⟨fun t ht => ht.elim, fun h => h.elim⟩) (fun m hm _ => .inl hm) (fun _ h => h) (fun _ h => h)
          · intro _
            have htr : ({ n with stQ := evs }.took none (.ok true, w)).sys.trigQ = n.sys.trigQ ++ trigsOf w.log := rfl
            have hck : ({ n with stQ := evs }.took none (.ok true, w)).checking = n.checking ++ w.log.filterMap (fun x => match x with | .spawnCheck h r hash b => some (h, r, hash, b) | _ => none) := rfl
            refine ⟨k7, .inl ?_, .inr (.inl ?_)⟩
            · rw [htr]; exact List.mem_append.2 (.inr k8)
            · rw [hck]
              exact List.mem_append.2 (.inr (List.mem_filterMap.2 ⟨_, k9, rfl⟩))
          · refine .inl ⟨k4, k6, k5.trans (by simp [ha]), fun _ => by simp, fun ev' hev => ?_⟩
            exact ((h4 ev' hev).monoP (P' := some sp) (by simp)).mono k3.grow hc'.st.toInv0 k2.toInv0
        · obtain ⟨w, hr, eff, k1, k2, k3, ⟨k4, k5, k6⟩, k7⟩ := run_nri (k := k) (ni := ni) (nc := nc) hg he hp hs
            (ok_follow hg he hE hc.st hP (by rw [hc.addr]; exact ha) h5 h6 h7)
          have heff : w.log = eff := k1
          subst heff
          rw [hr] at hx
          subst hx
          refine Goes.stay ⟨w.log, rfl, ?_, ?_, ?_⟩
          · exact hc.took rfl rfl rfl k2 k3 (fun _ h => h.elim) (hsub ⟨fun t ht => ht.elim, fun h => h.elim⟩) (fun m hm _ => .inl hm) (fun _ h => h) (fun _ h => h)
          · refine h.prog.took rfl rfl k3.grow k2.toInv0 (fun hs => ?_) (fun h => .inl h)
            rcases hs with ⟨⟨sp, hs⟩, _⟩ | hs
            · exact .inr (k7 sp hs)
            · exact absurd hs.1 ha
          · exact .inl ⟨k4, k6, k5.trans (by simp [ha]), fun h => absurd h ha, fun ev' hev => (h4 ev' hev).mono k3.grow hc.st.toInv0 k2.toInv0⟩
      | _ => exact h2.elim

end

end

end Overlord.Good
