import Verif.Proofs.GoodNode
import Verif.Proofs.MicroRun2
import Verif.Proofs.StateInv

/-! Steps of a node in a good round. -/

set_option linter.unusedSimpArgs false
set_option linter.unusedVariables false
set_option linter.unusedSectionVars false

namespace Overlord.Good
open M Spec

variable {T : Type} {g : GoodRound T} {P P' : Option (SignedProposal T)} {q q' : VoteType → Prop} {a : Address} {D : OverlordMsg T → Prop}
  {L L' : List (Effect T)}

/-! ### The voting state machine -/

/-- What a trigger of the round does. -/
theorem smr_out (hg : g.Ok) {n : NodeSys T} (h : Core g P q a D L n) {t : SMRTrigger} (ht : TrigOk g P n.st t) :
    (n.sys.smr.onTrigger t).res = .ok ∧ (n.sys.smr.onTrigger t).next.height = g.height ∧ (n.sys.smr.onTrigger t).next.round = g.round ∧
    ((t = tP g ∧ n.sys.smr.step = .propose ∧ (n.sys.smr.onTrigger t).next.step = .prevote ∧
      ∃ lr, LockStored n.st lr ∧ (n.sys.smr.onTrigger t).outs.filterMap Out.toState = [.prevoteVote g.height g.round g.hash lr]) ∨
     (t = tQ g .prevote ∧ HasQc g n.st .prevote ∧ (n.sys.smr.step = .propose ∨ n.sys.smr.step = .prevote) ∧ (n.sys.smr.onTrigger t).next.step = .precommit ∧
      ∃ lr, LockStored n.st lr ∧ (n.sys.smr.onTrigger t).outs.filterMap Out.toState = [.precommitVote g.height g.round g.hash lr]) ∨
     (t = tQ g .precommit ∧ HasQc g n.st .precommit ∧ (n.sys.smr.onTrigger t).next.step = .commit ∧
      (n.sys.smr.onTrigger t).outs.filterMap Out.toState = [.commit g.hash]) ∨
     (n.sys.smr.step ≠ .propose ∧ (n.sys.smr.onTrigger t).next.step = n.sys.smr.step ∧ (n.sys.smr.onTrigger t).outs.filterMap Out.toState = [] ∧
      (t = tQ g .prevote → n.sys.smr.step = .precommit ∨ n.sys.smr.step = .commit) ∧ (t = tQ g .precommit → n.sys.smr.step = .commit))) := by
  have hH := h.smrH
  have hR := h.smrR
  have hst := h.step
  have hpre := h.pre
  have hhash := hg.hash
  obtain ⟨hk, -, rfl | ⟨ty, rfl, hq⟩⟩ := ht
  · by_cases hs : n.sys.smr.step = .propose
    · obtain ⟨hs1, hs2⟩ := hpre hs
      have key : ∃ s1 lr, n.sys.smr.acceptProposal g.hash g.lock = some s1 ∧ s1.height = g.height ∧ s1.round = g.round ∧ s1.blockHash = g.hash ∧
          s1.lockRound = lr ∧ LockStored n.st lr := by
        unfold Smr.acceptProposal
        unfold Smr.lockRound at hs2
        rcases hs1 with h1 | h1 | ⟨l, p, h1, h2, h3⟩
        · rw [h1]
          cases g.lock <;> exact ⟨_, none, rfl, hH, hR, rfl, by simp [Smr.lockRound, h1], trivial⟩
        · cases hl : g.lock with
          | none =>
            cases hm : n.sys.smr.lock with
            | none => exact ⟨_, none, rfl, hH, hR, rfl, by simp [Smr.lockRound, hm], trivial⟩
            | some l => exact ⟨_, _, rfl, hH, hR, h1, rfl, hs2⟩
          | some p =>
            cases hm : n.sys.smr.lock with
            | none => exact ⟨_, none, rfl, hH, hR, rfl, by simp [Smr.lockRound, hm], trivial⟩
            | some l =>
              dsimp only
              split
              · exact ⟨_, none, rfl, hH, hR, rfl, rfl, trivial⟩
              · rw [if_neg (fun hc => hc.2 h1.symm)]
                exact ⟨_, _, rfl, hH, hR, h1, rfl, hs2⟩
        · rw [h1, h2]
          dsimp only
          rw [if_pos h3]
          exact ⟨_, none, rfl, hH, hR, rfl, rfl, trivial⟩
      obtain ⟨s1, lr, k1, k2, k3, k4, k5, k6⟩ := key
      have ho : n.sys.smr.onTrigger (tP g) = ⟨{ s1 with step := .prevote }, [.both (.prevoteVote s1.height s1.round s1.blockHash s1.lockRound)], .ok⟩ := by
        simp [Smr.onTrigger, tP, stTrigger, Smr.handleProposal, hH, hR, hs, hhash, k1, Step.toNat]
      rw [ho]
      refine ⟨rfl, k2, k3, .inl ⟨rfl, hs, rfl, lr, k6, ?_⟩⟩
      simp [Out.toState, k2, k3, k4, k5]
    · have ho : n.sys.smr.onTrigger (tP g) = n.sys.smr.idle := by
        cases hc : n.sys.smr.step <;> simp_all [Smr.onTrigger, tP, stTrigger, Smr.handleProposal, Step.toNat]
      rw [ho]
      exact ⟨rfl, hH, hR, .inr (.inr (.inr ⟨hs, rfl, rfl, fun hc => by simp [tP, tQ, stTrigger, VoteType.toTrigger] at hc, fun hc => by simp [tP, tQ, stTrigger, VoteType.toTrigger] at hc⟩))⟩
  · cases ty with
    | prevote =>
      by_cases hs : n.sys.smr.step = .propose ∨ n.sys.smr.step = .prevote
      · have ho : n.sys.smr.onTrigger (tQ g .prevote) = ⟨{ n.sys.smr with blockHash := g.hash, lock := some ⟨g.round, g.hash⟩, step := .precommit },
            [.both (.precommitVote g.height g.round g.hash (some g.round))], .ok⟩ := by
          rcases hs with hs | hs <;>
            simp [Smr.onTrigger, tQ, stTrigger, VoteType.toTrigger, Smr.handlePrevote, hH, hR, hs, hhash, Smr.updatePolc, Smr.lockRound, Step.toNat]
        rw [ho]
        refine ⟨rfl, hH, hR, .inr (.inl ⟨rfl, hq, hs, rfl, some g.round, ?_, by simp [Out.toState]⟩)⟩
        obtain ⟨qc, hqc⟩ := hq
        refine ⟨qc, g.block, ?_, ?_⟩
        · have := h.st.height; rw [this]; exact hqc
        · rw [(h.st.qc _ _ hqc).2.2.2]; exact hk
      · have ho : n.sys.smr.onTrigger (tQ g .prevote) = n.sys.smr.idle := by
          cases hc : n.sys.smr.step <;> simp_all [Smr.onTrigger, tQ, stTrigger, VoteType.toTrigger, Smr.handlePrevote, Step.toNat]
        rw [ho]
        refine ⟨rfl, hH, hR, .inr (.inr (.inr ⟨fun hc => hs (.inl hc), rfl, rfl, fun _ => ?_, fun hc => by simp [tQ, stTrigger, VoteType.toTrigger] at hc⟩))⟩
        cases hc : n.sys.smr.step <;> simp_all
    | precommit =>
      by_cases hs : n.sys.smr.step = .commit
      · have ho : n.sys.smr.onTrigger (tQ g .precommit) = n.sys.smr.idle := by
          simp [Smr.onTrigger, tQ, stTrigger, VoteType.toTrigger, Smr.handlePrecommit, hs]
        rw [ho]
        exact ⟨rfl, hH, hR, .inr (.inr (.inr ⟨by rw [hs]; simp, rfl, rfl, fun _ => .inr hs, fun _ => hs⟩))⟩
      · have ho : n.sys.smr.onTrigger (tQ g .precommit) = ⟨{ n.sys.smr with step := .commit }, [.both (.commit g.hash)], .ok⟩ := by
          simp [Smr.onTrigger, tQ, stTrigger, VoteType.toTrigger, Smr.handlePrecommit, hs, hH, hhash]
        rw [ho]
        exact ⟨rfl, hH, hR, .inr (.inr (.inl ⟨rfl, hq, rfl, by simp [Out.toState]⟩))⟩

theorem tP_ne (ty : VoteType) : tP g ≠ tQ g ty := by
  cases ty <;> simp [tP, tQ, stTrigger, VoteType.toTrigger]

theorem tQ_ne : tQ g .prevote ≠ tQ g .precommit := by
  simp [tQ, stTrigger, VoteType.toTrigger]

/-- The voting state machine handles a trigger. -/
theorem NodeIn.smr [ContentCodec T] [DecidableEq T] (hg : g.Ok) {n n' : NodeSys T} (h : NodeIn g P q a D L n) (hx : n.act a .smr = some n') :
    n'.log = n.log ∧ NodeIn g P q a D L n' := by
  have hc := h.core
  unfold NodeSys.act at hx
  rw [hc.up] at hx
  simp only [Bool.false_eq_true, if_false] at hx
  cases htq : n.sys.trigQ with
  | nil => rw [htq] at hx; cases hx
  | cons t ts =>
    have hto := hc.trigs t (by rw [htq]; simp)
    obtain ⟨h1, h2, h3, h4⟩ := smr_out hg hc hto
    rw [htq] at hx
    simp only [TimerSys.act, htq, h1, Option.some.injEq] at hx
    have hk : Known g n.st := hto.1
    have hP : P ≠ none := hto.2.1
    subst hx
    refine ⟨rfl, ?_⟩
    generalize ho : n.sys.smr.onTrigger t = o at *
    have hmem : ∀ x, x ∈ n.sys.trigQ → x ∈ ts ∨ x = t := by
      intro x hx; rw [htq] at hx; rcases List.mem_cons.1 hx with hx | hx; exacts [.inr hx, .inl hx]
    have hne : o.next.step ≠ .propose ∧ o.next.step ≠ .brake := by
      rcases h4 with ⟨_, _, h5, _⟩ | ⟨_, _, _, h5, _⟩ | ⟨_, _, h5, _⟩ | ⟨h6, h5, _⟩
      · rw [h5]; simp
      · rw [h5]; simp
      · rw [h5]; simp
      · rw [h5]; exact ⟨h6, hc.step⟩
    have hev : ∀ ev ∈ o.outs.filterMap Out.toState, EvOk g P n.st ev := by
      intro ev hev
      rcases h4 with ⟨_, _, _, lr, h6, h5⟩ | ⟨_, _, _, _, lr, h6, h5⟩ | ⟨_, h6, _, h5⟩ | ⟨_, _, h5, _⟩ <;> rw [h5] at hev
      · rw [List.mem_singleton] at hev; subst hev; exact ⟨rfl, h6, hP⟩
      · rw [List.mem_singleton] at hev; subst hev; exact ⟨rfl, h6, hP⟩
      · rw [List.mem_singleton] at hev; subst hev; exact ⟨rfl, h6, hk⟩
      · simp at hev
    have up : ∀ {p : SMREvent → Prop}, (∃ ev ∈ n.stQ, p ev) → ∃ ev ∈ n.stQ ++ o.outs.filterMap Out.toState, p ev := by
      rintro p ⟨ev, h5, h6⟩
      exact ⟨ev, List.mem_append.2 (.inl h5), h6⟩
    refine ⟨{ hc with up := rfl, smrH := h2, smrR := h3, step := hne.2, pre := fun hh => absurd hh hne.1, act := fun _ => hP, trigs := ?_, i2 := ?_, i3 := ?_, i4 := ?_, i5 := ?_, i6 := ?_ }, ?_, ?_⟩
    · intro x hx; exact hc.trigs x (by rw [htq]; exact List.mem_cons.2 (.inr hx))
    · intro _
      rcases h4 with ⟨_, _, h5, lr, h6, h7⟩ | ⟨_, h8, _, h5, _⟩ | ⟨_, h8, h5, _⟩ | ⟨h6, h5, _⟩
      · refine .inl ⟨.prevoteVote g.height g.round g.hash lr, ?_, rfl⟩
        show _ ∈ n.stQ ++ o.outs.filterMap Out.toState
        rw [h7]; simp
      · exact .inr (.inr (.inl h8))
      · exact .inr (.inr (.inr h8))
      · rcases hc.i2 h6 with h7 | h7
        · exact .inl (up h7)
        · exact .inr h7
    · intro hs
      have hs : o.next.step = .precommit := hs
      rcases h4 with ⟨_, _, h5, _⟩ | ⟨_, h8, _, h5, lr, h6, h7⟩ | ⟨_, h8, h5, _⟩ | ⟨h6, h5, _⟩
      · rw [h5] at hs; cases hs
      · refine .inl ⟨.precommitVote g.height g.round g.hash lr, ?_, rfl⟩
        show _ ∈ n.stQ ++ o.outs.filterMap Out.toState
        rw [h7]; simp
      · rw [h5] at hs; cases hs
      · rw [h5] at hs
        rcases hc.i3 hs with h7 | h7
        · exact .inl (up h7)
        · exact .inr h7
    · intro hq hf
      show _ ∈ ts ∨ o.next.step = .precommit ∨ o.next.step = .commit ∨ _
      rcases h4 with ⟨h9, _, h5, _⟩ | ⟨_, h8, _, h5, _⟩ | ⟨_, h8, h5, _⟩ | ⟨h6, h5, _, h7, h8⟩
      · rcases hc.i4 hq hf with h10 | h10 | h10 | h10
        · rcases hmem _ h10 with h11 | h11
          · exact .inl h11
          · exact absurd (h11.trans h9).symm (tP_ne _)
        · simp_all
        · simp_all
        · exact .inr (.inr (.inr h10))
      · exact .inr (.inl h5)
      · exact .inr (.inr (.inl h5))
      · rw [h5]
        rcases hc.i4 hq hf with h10 | h10 | h10 | h10
        · rcases hmem _ h10 with h11 | h11
          · exact .inl h11
          · rcases h7 h11.symm with h12 | h12
            · exact .inr (.inl h12)
            · exact .inr (.inr (.inl h12))
        · exact .inr (.inl h10)
        · exact .inr (.inr (.inl h10))
        · exact .inr (.inr (.inr h10))
    · intro hq hf
      show _ ∈ ts ∨ (∃ ev ∈ n.stQ ++ o.outs.filterMap Out.toState, _) ∨ _
      rcases hc.i5 hq hf with h10 | h10 | h10
      · rcases hmem _ h10 with h11 | h11
        · exact .inl h11
        · rcases h4 with ⟨h9, _, h5, _⟩ | ⟨h9, h8, _, h5, _⟩ | ⟨_, h8, h5, h7⟩ | ⟨h6, h5, _, h7, h8⟩
          · exact absurd (h11.trans h9).symm (tP_ne _)
          · exact absurd (h11.trans h9).symm tQ_ne
          · refine .inr (.inl ⟨.commit g.hash, ?_, trivial⟩)
            rw [h7]; simp
          · rcases (hc.i6 (h8 h11.symm)).2 with h12 | h12
            · exact .inr (.inl (up h12))
            · exact .inr (.inr h12)
      · exact .inr (.inl (up h10))
      · exact .inr (.inr h10)
    · intro hs
      have hs : o.next.step = .commit := hs
      show _ ∧ ((∃ ev ∈ n.stQ ++ o.outs.filterMap Out.toState, _) ∨ _)
      rcases h4 with ⟨h9, _, h5, _⟩ | ⟨h9, h8, _, h5, _⟩ | ⟨_, h8, h5, h7⟩ | ⟨h6, h5, _, h7, h8⟩
      · rw [h5] at hs; cases hs
      · rw [h5] at hs; cases hs
      · refine ⟨h8, .inl ⟨.commit g.hash, ?_, trivial⟩⟩
        rw [h7]; simp
      · rw [h5] at hs
        refine ⟨(hc.i6 hs).1, ?_⟩
        rcases (hc.i6 hs).2 with h12 | h12
        · exact .inl (up h12)
        · exact .inr h12
    · intro hs
      obtain ⟨h5, h6, h7⟩ := h.prog hs
      exact ⟨h5, .inr hne.1, h7⟩
    · rcases h.shape with h5 | ⟨nri, post, h5, h6, h7, h8⟩
      · refine .inl { h5 with evs := fun ev he => ?_ }
        rcases List.mem_append.1 he with he | he
        exacts [h5.evs ev he, hev ev he]
      · refine .inr ⟨nri, post ++ o.outs.filterMap Out.toState, ?_, h6, h7, fun ev he => ?_⟩
        · show n.stQ ++ _ = _
          rw [h5]; rfl
        · rcases List.mem_append.1 he with he | he
          exacts [h8 ev he, hev ev he]

/-- Only the timer, or the tasks, changed. -/
theorem NodeIn.other {n : NodeSys T} {D' : OverlordMsg T → Prop} (n' : NodeSys T) (h : NodeIn g P q a D L n) (e0 : n'.down = n.down) (e1 : n'.st = n.st) (e2 : n'.sys.smr = n.sys.smr)
    (e3 : n'.sys.trigQ = n.sys.trigQ) (e4 : n'.stQ = n.stQ)
    (h5 : ∀ m ∈ n'.verifiedQ, MsgOk g P q n.st m)
    (h6 : ∀ x ∈ n'.verifying, x.1.isRichStatus = false ∧ x.1 ≠ .stop)
    (h7 : ∀ x ∈ n'.checking, x ∈ n.checking)
    (h8 : ∀ x ∈ n'.respQ, (x = ⟨g.height, g.round, g.hash, true⟩ ∧ Known g n.st ∧ n.st.round = g.round) ∨ x.height < g.height)
    (h9 : Checks g n → Checks g n')
    (h10 : ∀ m, D' m → (∃ x ∈ n'.verifying, x.1 = m) ∨ m ∈ n'.verifiedQ ∨ Taken g n.st m) : NodeIn g P q a D' L n' := by
  have hc := h.core
  refine ⟨⟨e0.trans hc.up, by rw [e1]; exact hc.addr, by rw [e1]; exact hc.st, by rw [e2]; exact hc.smrH, by rw [e2]; exact hc.smrR, by rw [e2]; exact hc.step,
    by rw [e1, e2]; exact hc.pre, by rw [e2]; exact hc.act, by rw [e1, e3]; exact hc.trigs, by rw [e1]; exact fun x hx => hc.chk x (h7 x hx), by rw [e1]; exact h8, by rw [e1]; exact h5, h6,
    by rw [e1]; exact hc.has, by rw [e1, e2, e4]; exact hc.i2, by rw [e1, e2, e4]; exact hc.i3, by rw [e1, e2, e3]; exact hc.i4, by rw [e1, e3, e4]; exact hc.i5,
    by rw [e1, e2, e4]; exact hc.i6, by rw [e1]; exact hc.own, hc.sends, by rw [e1]; exact h10⟩, ?_, ?_⟩
  · unfold Prog
    rw [e1, e2, e3]
    intro hs
    obtain ⟨k1, k2, k3⟩ := h.prog hs
    exact ⟨k1, k2, k3.imp id h9⟩
  · rcases h.shape with k | ⟨nri, post, k1, k2, k3, k4⟩
    · exact .inl ⟨by rw [e1]; exact k.round, by rw [e1]; exact k.leaderAddress, by rw [e1]; exact k.isLeader, k.prop, by rw [e1, e4]; exact k.evs⟩
    · exact .inr ⟨nri, post, by rw [e4]; exact k1, by rw [e1]; exact k2, k3, by rw [e1]; exact k4⟩

/-- Nothing but the timer changed. -/
theorem NodeIn.timer {n : NodeSys T} (h : NodeIn g P q a D L n) (sys : TimerSys) (e2 : sys.smr = n.sys.smr) (e3 : sys.trigQ = n.sys.trigQ) :
    NodeIn g P q a D L { n with sys := sys } :=
  h.other (n' := { n with sys := sys }) rfl rfl e2 e3 rfl h.core.ver h.core.vfy (fun _ h => h) h.core.resp id h.core.got

section
variable [ContentCodec T] [DecidableEq T]

theorem NodeIn.set {n n' : NodeSys T} (h : NodeIn g P q a D L n) (hx : n.act a .set = some n') : n'.log = n.log ∧ NodeIn g P q a D L n' := by
  unfold NodeSys.act at hx
  rw [h.core.up] at hx
  simp only [Bool.false_eq_true, if_false, Option.map_eq_some_iff] at hx
  obtain ⟨sys, h1, rfl⟩ := hx
  refine ⟨rfl, ?_⟩
  have : sys.smr = n.sys.smr ∧ sys.trigQ = n.sys.trigQ := by
    unfold TimerSys.act at h1
    dsimp only at h1
    split at h1
    · cases h1
    · cases h1
    · cases h1; exact ⟨rfl, rfl⟩
  have := h.timer sys this.1 this.2
  rw [h.core.up] at this
  exact this

theorem NodeIn.expire {n n' : NodeSys T} {i : Nat} (h : NodeIn g P q a D L n) (hx : n.act a (.expire i) = some n') : n'.log = n.log ∧ NodeIn g P q a D L n' := by
  unfold NodeSys.act at hx
  rw [h.core.up] at hx
  simp only [Bool.false_eq_true, if_false, Option.map_eq_some_iff] at hx
  obtain ⟨sys, h1, rfl⟩ := hx
  refine ⟨rfl, ?_⟩
  have : sys.smr = n.sys.smr ∧ sys.trigQ = n.sys.trigQ := by
    unfold TimerSys.act at h1
    dsimp only at h1
    split at h1
    · cases h1
    · cases h1; exact ⟨rfl, rfl⟩
  have := h.timer sys this.1 this.2
  rw [h.core.up] at this
  exact this

theorem mem_eraseIdx {α : Type} {l : List α} {i : Nat} {x y : α} (h : x ∈ l) (hy : l[i]? = some y) : x ∈ l.eraseIdx i ∨ x = y := by
  induction l generalizing i with
  | nil => cases h
  | cons z zs ih =>
    cases i with
    | zero =>
      simp only [List.getElem?_cons_zero, Option.some.injEq] at hy
      rcases List.mem_cons.1 h with h | h
      · exact .inr (h.trans hy)
      · exact .inl h
    | succ i =>
      simp only [List.getElem?_cons_succ] at hy
      rw [List.eraseIdx_cons_succ]
      rcases List.mem_cons.1 h with h | h
      · exact .inl (by simp [h])
      · rcases ih h hy with h | h
        · exact .inl (List.mem_cons.2 (.inr h))
        · exact .inr h

theorem NodeIn.checkDone {n n' : NodeSys T} {i : Nat} (h : NodeIn g P q a D L n) (hx : n.act a (.checkDone i true) = some n') :
    n'.log = n.log ∧ NodeIn g P q a D L n' := by
  have hc := h.core
  unfold NodeSys.act at hx
  rw [hc.up] at hx
  simp only [Bool.false_eq_true, if_false] at hx
  split at hx
  · cases hx
  · rename_i k r x b hi
    have hck := hc.chk _ (List.mem_of_getElem? hi)
    cases hx
    refine ⟨rfl, h.other ⟨_, _, _, _, _, _, _, _, _⟩ (by exact hc.up.symm) (by rfl) (by rfl) (by rfl) (by rfl) hc.ver hc.vfy (fun _ h => List.mem_of_mem_eraseIdx h) ?_ ?_ hc.got⟩
    · intro y hy
      rcases List.mem_append.1 hy with hy | hy
      · exact hc.resp y hy
      · rw [if_pos trivial, List.mem_singleton] at hy
        subst hy
        rcases hck with ⟨h1, h2, h3⟩ | h1
        · cases h1
          exact .inl ⟨rfl, h2, h3⟩
        · exact .inr h1
    · rintro (h1 | h1)
      · rcases mem_eraseIdx h1 hi with h2 | h2
        · exact .inl h2
        · cases h2
          exact .inr (List.mem_append.2 (.inr (by simp)))
      · exact .inr (List.mem_append.2 (.inl h1))

theorem NodeIn.verifyDone {n n' : NodeSys T} {c : Crypto} {i : Nat} (h : NodeIn g P q a D L n) (hD : ∀ m, D m → m.getHeight? = some g.height)
    (hv : ∀ m au, n.verifying[i]? = some (m, au) → m.getHeight? = some g.height →
      (D m → verifyTask c m au = true) ∧ (verifyTask c m au = true → MsgOk g P q n.st m))
    (hx : n.act a (.verifyDone c i) = some n') :
    n'.log = n.log ∧ NodeIn g P q a D L n' := by
  have hc := h.core
  unfold NodeSys.act at hx
  rw [hc.up] at hx
  simp only [Bool.false_eq_true, if_false] at hx
  split at hx
  · cases hx
  · rename_i m au hi
    obtain ⟨h2, h3⟩ := hc.vfy _ (List.mem_of_getElem? hi)
    cases hx
    refine ⟨rfl, h.other ⟨_, _, _, _, _, _, _, _, _⟩ (by exact hc.up.symm) (by rfl) (by rfl) (by rfl) (by rfl) ?_ (fun _ h => hc.vfy _ (List.mem_of_mem_eraseIdx h)) (fun _ h => h) hc.resp id ?_⟩
    · intro y hy
      rcases List.mem_append.1 hy with hy | hy
      · exact hc.ver y hy
      · split at hy
        · rename_i hvt
          rw [List.mem_singleton] at hy
          subst hy
          by_cases hh : y.getHeight? = some g.height
          · exact (hv y au hi hh).2 hvt
          · exact .inr (.inr (.inr ⟨h2, h3, .inl hh⟩))
        · simp at hy
    · intro y hy
      rcases hc.got y hy with ⟨x, h4, h5⟩ | h4 | h4
      · rcases mem_eraseIdx h4 hi with h6 | h6
        · exact .inl ⟨x, h6, h5⟩
        · subst h6
          dsimp only at h5
          subst h5
          rw [if_pos ((hv m au hi (hD m hy)).1 hy)]
          exact .inr (.inl (by simp))
      · exact .inr (.inl (List.mem_append.2 (.inl h4)))
      · exact .inr (.inr h4)

/-- A message arrives. -/
theorem NodeIn.raw {n n' : NodeSys T} {m : OverlordMsg T} {e : Env T} (h : NodeIn g P q a D L n) (hm : m.isRichStatus = false) (hs : m ≠ .stop)
    (hx : n.act a (.arm (.raw m) e none) = some n') :
    (∃ eff, n'.log = n.log ++ eff ∧ (∀ m, .broadcast m ∉ eff) ∧ (∀ d m, .transmit d m ∉ eff)) ∧
    ∀ L', NodeIn g P q a D L' n →
    NodeIn g P q a (fun m' => D m' ∨ m' = m ∧ m.getHeight? = some g.height) L' n' := by
  have hc := h.core
  have hh : ∃ k, m.getHeight? = some k := by
    cases m with
    | richStatus => simp [OverlordMsg.isRichStatus] at hm
    | stop => exact absurd rfl hs
    | _ => exact ⟨_, rfl⟩
  obtain ⟨k, hk⟩ := hh
  unfold NodeSys.act at hx
  rw [hc.up] at hx
  simp only [Bool.false_eq_true, if_false, NodeSys.take, Option.some.injEq] at hx
  have hH := hc.st.height
  by_cases h1 : n.st.height < k
  · have hr : runArm (.raw m) e ⟨n.st, []⟩ = (.ok true, ⟨n.st, [.toVerified m]⟩) := by
      simp [runArm, hm, hk, bind, M.bind, M.get, h1, M.emit, pure, M.pure]
    rw [hr] at hx
    subst hx
    refine ⟨⟨_, rfl, by simp [cutTo], by simp [cutTo]⟩, fun L' h => h.other (n.took none _) ?_ (by rfl) (by rfl) ?_ (by rfl) ?_ ?_ ?_ h.core.resp ?_ ?_⟩
    · show false = _; exact hc.up.symm
    · exact List.append_nil _
    · intro y hy
      rcases List.mem_append.1 hy with hy | hy
      · exact hc.ver y hy
      · simp only [cutTo, List.filterMap_cons, List.filterMap_nil, List.mem_singleton] at hy
        subst hy
        refine .inr (.inr (.inr ⟨hm, hs, .inl ?_⟩))
        rw [hk]
        simp only [ne_eq, Option.some.injEq]
        omega
    · intro x hx
      have hx : x ∈ n.verifying ++ [] := hx
      rw [List.append_nil] at hx; exact hc.vfy x hx
    · intro x hx
      have hx : x ∈ n.checking ++ [] := hx
      rw [List.append_nil] at hx; exact hx
    · intro hx
      exact hx.imp (fun h => List.mem_append.2 (.inl h)) id
    · intro y hy
      rcases hy with hy | ⟨rfl, hy⟩
      · rcases hc.got y hy with ⟨x, h4, h5⟩ | h4 | h4
        · exact .inl ⟨x, List.mem_append.2 (.inl h4), h5⟩
        · exact .inr (.inl (List.mem_append.2 (.inl h4)))
        · exact .inr (.inr h4)
      · rw [hk] at hy; cases hy; omega
  · by_cases h2 : n.st.height = k
    · have hr : runArm (.raw m) e ⟨n.st, []⟩ = (.ok true, ⟨n.st, [.spawnVerify m n.st.authority]⟩) := by
        simp [runArm, hm, hk, bind, M.bind, M.get, h1, h2, M.emit, pure, M.pure]
      rw [hr] at hx
      subst hx
      refine ⟨⟨_, rfl, by simp [cutTo], by simp [cutTo]⟩, fun L' h => h.other (n.took none _) ?_ (by rfl) (by rfl) ?_ (by rfl) ?_ ?_ ?_ h.core.resp ?_ ?_⟩
      · show false = _; exact hc.up.symm
      · exact List.append_nil _
      · intro y hy
        have hy : y ∈ n.verifiedQ ++ [] := hy
        rw [List.append_nil] at hy; exact hc.ver y hy
      · intro x hx
        rcases List.mem_append.1 hx with hx | hx
        · exact hc.vfy x hx
        · simp only [cutTo, List.filterMap_cons, List.filterMap_nil, List.mem_singleton] at hx
          subst hx
          exact ⟨hm, hs⟩
      · intro x hx
        have hx : x ∈ n.checking ++ [] := hx
        rw [List.append_nil] at hx; exact hx
      · intro hx
        exact hx.imp (fun h => List.mem_append.2 (.inl h)) id
      · intro y hy
        rcases hy with hy | ⟨rfl, hy⟩
        · rcases hc.got y hy with ⟨x, h4, h5⟩ | h4 | h4
          · exact .inl ⟨x, List.mem_append.2 (.inl h4), h5⟩
          · exact .inr (.inl (List.mem_append.2 (.inl h4)))
          · exact .inr (.inr h4)
        · exact .inl ⟨(y, n.st.authority), List.mem_append.2 (.inr (by simp [cutTo])), rfl⟩
    · have hr : runArm (.raw m) e ⟨n.st, []⟩ = (.ok true, ⟨n.st, []⟩) := by
        simp [runArm, hm, hk, bind, M.bind, M.get, h1, h2, M.emit, pure, M.pure]
      rw [hr] at hx
      subst hx
      refine ⟨⟨_, rfl, by simp [cutTo], by simp [cutTo]⟩, fun L' h => h.other (n.took none _) ?_ (by rfl) (by rfl) ?_ (by rfl) ?_ ?_ ?_ h.core.resp ?_ ?_⟩
      · show false = _; exact hc.up.symm
      · exact List.append_nil _
      · intro y hy
        have hy : y ∈ n.verifiedQ ++ [] := hy
        rw [List.append_nil] at hy; exact hc.ver y hy
      · intro x hx
        have hx : x ∈ n.verifying ++ [] := hx
        rw [List.append_nil] at hx; exact hc.vfy x hx
      · intro x hx
        have hx : x ∈ n.checking ++ [] := hx
        rw [List.append_nil] at hx; exact hx
      · intro hx
        exact hx.imp (fun h => List.mem_append.2 (.inl h)) id
      · intro y hy
        rcases hy with hy | ⟨rfl, hy⟩
        · rcases hc.got y hy with ⟨x, h4, h5⟩ | h4 | h4
          · exact .inl ⟨x, List.mem_append.2 (.inl h4), h5⟩
          · exact .inr (.inl (List.mem_append.2 (.inl h4)))
          · exact .inr (.inr h4)
        · rw [hk] at hy; cases hy; omega

end

end Overlord.Good
