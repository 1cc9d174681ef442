import Verif.Spec.Origin
import Verif.Proofs.NetGen

/-! Where the blocks a node holds, proposes, saves and commits come from (used for C59). -/

set_option linter.unusedSimpArgs false
set_option linter.unusedVariables false
set_option linter.unusedSectionVars false
set_option linter.unnecessarySeqFocus false

namespace Overlord
open M Spec

variable {T : Type} [ContentCodec T] [DecidableEq T]

namespace Origin

/-- Only the leader asks for a block; a proposal without a lock carries the answer. -/
structure Asked (e : Env T) (s : State T) (l : List (Effect T)) : Prop where
  leads : ∀ k res, .getBlock k res ∈ l → k = s.height ∧ ∃ r, s.authority.getProposer e.mode k r = .ok s.address
  proposes : ∀ j sp, .broadcast (.signedProposal sp) ∈ l.take j → sp.proposal.lock = none →
    .getBlock sp.proposal.height (some (sp.proposal.content, sp.proposal.blockHash)) ∈ l.take j

theorem Asked.nil {e : Env T} {s : State T} : Asked e s [] := ⟨by simp, by simp⟩

/-- Effects that are neither. -/
def Plain (x : Effect T) : Prop :=
  (∀ k res, x ≠ .getBlock k res) ∧ ∀ sp, x = .broadcast (.signedProposal sp) → sp.proposal.lock ≠ none

theorem take_snoc {α : Type} {l : List α} {x : α} (j : Nat) : (l ++ [x]).take j = l.take j ∨ (l ++ [x]).take j = l ++ [x] := by
  by_cases h : j ≤ l.length
  · left; rw [List.take_append_of_le_length h]
  · right
    apply List.take_of_length_le
    simp; omega

theorem Asked.snoc {e : Env T} {s : State T} {l : List (Effect T)} {x : Effect T} (h : Asked e s l) (hx : Plain x) : Asked e s (l ++ [x]) := by
  refine ⟨fun k res hm => ?_, fun j sp hm hl => ?_⟩
  · rcases List.mem_append.1 hm with hm | hm
    · exact h.leads k res hm
    · exact absurd (List.mem_singleton.1 hm).symm (hx.1 k res)
  · rcases take_snoc (l := l) (x := x) j with e1 | e1
    · rw [e1] at hm ⊢; exact h.proposes j sp hm hl
    · rw [e1] at hm ⊢
      rcases List.mem_append.1 hm with hm | hm
      · have := h.proposes l.length sp (by rwa [List.take_length]) hl
        rw [List.take_length] at this
        exact List.mem_append_left _ this
      · exact absurd hl (hx.2 sp (List.mem_singleton.1 hm).symm)

theorem Asked.append {e : Env T} {s : State T} {l l' : List (Effect T)} (h : Asked e s l) (hx : ∀ x ∈ l', Plain x) : Asked e s (l ++ l') := by
  induction l' generalizing l with
  | nil => simpa using h
  | cons x l' ih =>
    have := ih (h.snoc (hx x (by simp))) (fun y hy => hx y (by simp [hy]))
    simpa using this

theorem Asked.ask {e : Env T} {s : State T} {l : List (Effect T)} {res : Option (T × Hash)} {r : Nat} (h : Asked e s l)
    (hl : s.authority.getProposer e.mode s.height r = .ok s.address) : Asked e s (l ++ [.getBlock s.height res]) := by
  refine ⟨fun k res' hm => ?_, fun j sp hm hl => ?_⟩
  · rcases List.mem_append.1 hm with hm | hm
    · exact h.leads k res' hm
    · simp only [List.mem_singleton, Effect.getBlock.injEq] at hm
      obtain ⟨rfl, _⟩ := hm
      exact ⟨rfl, r, hl⟩
  · rcases take_snoc (l := l) (x := .getBlock s.height res) j with e1 | e1
    · rw [e1] at hm ⊢; exact h.proposes j sp hm hl
    · rw [e1] at hm ⊢
      rcases List.mem_append.1 hm with hm | hm
      · have := h.proposes l.length sp (by rwa [List.take_length]) hl
        rw [List.take_length] at this
        exact List.mem_append_left _ this
      · simp at hm

theorem Asked.propose {e : Env T} {s : State T} {l : List (Effect T)} {sp : SignedProposal T} (h : Asked e s l)
    (hl : .getBlock sp.proposal.height (some (sp.proposal.content, sp.proposal.blockHash)) ∈ l) :
    Asked e s (l ++ [.broadcast (.signedProposal sp)]) := by
  refine ⟨fun k res' hm => ?_, fun j sp' hm hl' => ?_⟩
  · rcases List.mem_append.1 hm with hm | hm
    · exact h.leads k res' hm
    · simp at hm
  · rcases take_snoc (l := l) (x := .broadcast (.signedProposal sp)) j with e1 | e1
    · rw [e1] at hm ⊢; exact h.proposes j sp' hm hl'
    · rw [e1] at hm ⊢
      rcases List.mem_append.1 hm with hm | hm
      · have := h.proposes l.length sp' (by rwa [List.take_length]) hl'
        rw [List.take_length] at this
        exact List.mem_append_left _ this
      · simp only [List.mem_singleton, Effect.broadcast.injEq, OverlordMsg.signedProposal.injEq] at hm
        subst hm
        exact List.mem_append_left _ hl

/-- Micro-steps of other inputs. -/
theorem micro_plain {e : Env T} {i : Input T} {s s' : State T} {eff : List (Effect T)} (hi : ∀ r lr lp f, ¬ NewRoundInput i r lr lp f)
    (hm : Micro e i s eff s') : ∀ x ∈ eff, Plain x := by
  intro x hx
  cases hm with
  | askBlock h => obtain ⟨r, lp, f, h⟩ := h; exact absurd h (hi _ _ _ _)
  | ownBlock hash block h => obtain ⟨r, lr, lp, f, h⟩ := h; exact absurd h (hi _ _ _ _)
  | propose sp r lr lp f h => exact absurd h (hi _ _ _ _)
  | enterRound r lr lp f h => exact absurd h (hi _ _ _ _)
  | castVote =>
    simp only [List.mem_cons, List.not_mem_nil, or_false] at hx
    rcases hx with rfl | rfl
    · exact ⟨by simp, by simp⟩
    · split <;> exact ⟨by simp, by simp⟩
  | _ =>
    (simp only [List.cons_append, List.mem_cons, List.mem_append, List.mem_map, List.not_mem_nil, or_false] at hx) <;>
    first
      | (cases hx; done)
      | (subst hx; exact ⟨by simp, by simp⟩)
      | (rcases hx with rfl | rfl <;> exact ⟨by simp, by simp⟩)
      | (rcases hx with rfl | ⟨m, _, rfl⟩ | rfl <;> exact ⟨by simp, by simp⟩)

theorem plain_signedProposal {e : Env T} {s : State T} {l : List (Effect T)} {sp : SignedProposal T} :
    wp (handleSignedProposal sp) e ⟨s, l⟩ (fun _ w => ∃ l', w.log = l ++ l' ∧ ∀ x ∈ l', Plain x)
      (fun _ w => ∃ l', w.log = l ++ l' ∧ ∀ x ∈ l', Plain x) := by
  have key : ∀ w, Runs e (.verified (.signedProposal sp)) ⟨s, l⟩ w → ∃ l', w.log = l ++ l' ∧ ∀ x ∈ l', Plain x := by
    intro w h
    induction h with
    | refl => exact ⟨[], by simp⟩
    | step h hm ih =>
      obtain ⟨l', h1, h2⟩ := ih
      refine ⟨l' ++ _, by rw [h1, List.append_assoc], fun x hx => ?_⟩
      rcases List.mem_append.1 hx with hx | hx
      · exact h2 x hx
      · exact micro_plain (by rintro r lr lp f ⟨h, ni, nc, h'⟩; cases h') hm x hx
  exact wp_mono (walk_signedProposal .refl (.inl rfl)) (fun _ w h => key w h) (fun _ w h => key w h)

theorem asked_newRound {e : Env T} {s : State T} {r : Nat} {lr : Option Nat} {lp : Option Hash} {f : FromWhere} :
    wp (handleNewRound r lr lp f) e ⟨s, []⟩ (fun _ w => Asked e s w.log) (fun _ w => Asked e s w.log) := by
  have key : ∀ l' : List (Effect T), Asked e s l' →
      wp (do
        if lr.isSome ≠ lp.isSome then fail .proposalErr
        else
          setUpdateFrom f
          saveWalWithLockRound .propose lr
          if (← isProposer) = false then
            let s ← get
            match s.proposals.get s.height s.round with
            | .ok sp => handleSignedProposal sp
            | .error _ => pure ()
          else
            modify fun s => { s with isLeader := true }
            let (block, hash, polc) ← proposalParts lr lp
            modify fun s => { s with hashWithBlock :=
              match s.hashWithBlock.get? hash with
              | some _ => s.hashWithBlock
              | none => s.hashWithBlock.insert hash block }
            let s ← get
            let sp ← signProposal { height := s.height, round := s.round, content := block,
                                    blockHash := hash, lock := polc, proposer := s.address }
            broadcast (.signedProposal sp)
            emit (.trigger (stTrigger .proposal hash lr s.round s.height))
            checkBlock hash block) e ⟨{ s with round := r, isLeader := false }, l'⟩
        (fun _ w => Asked e s w.log) (fun _ w => Asked e s w.log) := by
    intro l' h
    rw [wp_ite]
    refine ⟨fun _ => h, fun hs => ?_⟩
    rw [wp_bind]
    refine wp_setUpdateFrom (fun _ => h) fun u hu => ?_
    rw [wp_bind]
    refine wp_saveWalLR (fun _ => h) (fun lock b hl e1 e2 => h.snoc ⟨by simp, by simp⟩) (fun lock b hl e1 e2 => ?_)
    have h3 := h.snoc (x := .saveWal (walRec ({ s with round := r, isLeader := false, updateFrom := u } : State T) .propose lock) true) ⟨by simp, by simp⟩
    generalize (l' ++ [Effect.saveWal _ true]) = l'' at h3
    rw [wp_bind]
    refine wp_isProposer (fun _ => h3) fun p hp => ?_
    rw [wp_ite]
    refine ⟨fun hb => ?_, fun hb => ?_⟩
    · wps
      split
      · refine wp_mono plain_signedProposal ?_ ?_ <;>
        · rintro _ w ⟨l2, h1, h2⟩
          rw [h1]; exact h3.append h2
      · exact h3
    · have hb : p = s.address := by simpa using hb
      subst hb
      have hp : s.authority.getProposer e.mode s.height r = .ok s.address := hp
      wps
      unfold proposalParts
      cases lr with
      | none =>
        wps
        have h5 := h3.ask (res := e.getBlock s.height) hp
        refine ⟨fun bh hbh => ?_, fun _ => h5⟩
        obtain ⟨block, hash⟩ := bh
        wps [signProposal, broadcast, checkBlock]
        refine ⟨fun b hb => ⟨fun sig hsig => ?_, fun _ => h5⟩, fun _ => h5⟩
        refine Asked.snoc (Asked.snoc (Asked.propose h5 ?_) ⟨by simp, by simp⟩) ⟨by simp, by simp⟩
        rw [hbh]
        simp
      | some k =>
        wps
        refine ⟨fun hash hlp => ⟨fun b hget => ?_, fun _ => h3⟩, fun _ => h3⟩
        split
        · rename_i qc hq
          wps [signProposal, broadcast, checkBlock, hget]
          refine ⟨fun b' hb => ⟨fun sig hsig => ?_, fun _ => h3⟩, fun _ => h3⟩
          refine Asked.snoc (Asked.snoc (Asked.snoc h3 ⟨by simp, ?_⟩) ⟨by simp, by simp⟩) ⟨by simp, by simp⟩
          intro sp hsp
          simp only [Effect.broadcast.injEq, OverlordMsg.signedProposal.injEq] at hsp
          subst hsp; simp
        · exact h3
  unfold handleNewRound
  rw [wp_bind, wp_get]
  by_cases hr : r = INIT_ROUND
  · have := key [] .nil
    simp only [hr, ne_eq, not_true_eq_false, if_false] at this ⊢
    rw [wp_bind, wp_modify]
    exact this
  · have := key [.reportViewChange s.height s.round (s.viewChangeReason s.round f)] (Asked.nil.snoc ⟨by simp, by simp⟩)
    simp only [hr, ne_eq, not_false_eq_true, if_true, reportViewChange]
    rw [wp_bind, wp_bind, wp_get, wp_emit, wp_bind, wp_modify]
    exact this

theorem arm_asked {e : Env T} {s : State T} {i : Input T} : Asked e s (runArm i e ⟨s, []⟩).2.log := by
  by_cases hi : ∃ r lr lp f, NewRoundInput i r lr lp f
  · obtain ⟨r, lr, lp, f, h, ni, nc, rfl⟩ := hi
    by_cases h' : s.consensusPower = false ∨ s.stopped = true
    · rw [event_idle h']; exact .nil
    · simp only [not_or, Bool.not_eq_false, Bool.not_eq_true] at h'
      refine event_post (P := fun w => Asked e s w.log) h'.1 h'.2 ?_
      unfold handleEvent
      wps
      exact wp_mono asked_newRound (fun _ _ h => h) (fun _ _ h => ⟨fun _ => h, fun _ => h⟩)
  · have hi : ∀ r lr lp f, ¬ NewRoundInput i r lr lp f := fun r lr lp f h => hi ⟨r, lr, lp, f, h⟩
    have hp : ∀ x ∈ (runArm i e ⟨s, []⟩).2.log, Plain x := by
      intro x hx
      obtain ⟨s1, eff, s2, -, hm, hx⟩ := arm_effect (P := fun _ => True) trivial (fun _ _ _ _ _ => trivial) hx
      exact micro_plain hi hm x hx
    have := Asked.append (e := e) (s := s) (l := []) .nil hp
    simpa using this

end Origin
end Overlord
