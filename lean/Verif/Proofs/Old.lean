import Verif.Spec.Old
import Verif.Proofs.NodeVotes
import Verif.Proofs.Outcomes
import Verif.Props.State4
import Verif.Proofs.NoPanicNode

/-! # Proofs for C76: what is over is over -/

set_option linter.unusedSectionVars false
set_option linter.unusedVariables false

namespace Overlord
open M Spec
namespace Past

/-! ## Lists -/

section
variable {α : Type} {p q : α → Prop}

theorem refl : ∀ l : List α, Thinned p l l
  | [] => .nil
  | x :: l => .keep x (refl l)

theorem mono (h : ∀ x, p x → q x) {l l' : List α} (t : Thinned p l l') : Thinned q l l' := by
  induction t with
  | nil => exact .nil
  | keep x _ ih => exact .keep x ih
  | drop x hp _ ih => exact .drop x (h x hp) ih

theorem append {l l' k k' : List α} (t : Thinned p l l') (u : Thinned p k k') : Thinned p (l ++ k) (l' ++ k') := by
  induction t with
  | nil => exact u
  | keep x _ ih => exact .keep x ih
  | drop x hp _ ih => exact .drop x hp ih

theorem app (k : List α) {l l' : List α} (t : Thinned p l l') : Thinned p (l ++ k) (l' ++ k) := append t (refl k)

theorem cons {x : α} {l l' : List α} (t : Thinned p (x :: l) l') :
    (p x ∧ Thinned p l l') ∨ ∃ k, l' = x :: k ∧ Thinned p l k := by
  cases t with
  | keep _ h => exact .inr ⟨_, rfl, h⟩
  | drop _ hp h => exact .inl ⟨hp, h⟩

theorem take {l l' : List α} (t : Thinned p l l') :
    ∀ (i : Nat) (x : α), l[i]? = some x →
      (p x ∧ Thinned p (l.eraseIdx i) l') ∨ ∃ j, l'[j]? = some x ∧ Thinned p (l.eraseIdx i) (l'.eraseIdx j) := by
  induction t with
  | nil => intro i x h; simp at h
  | keep y t ih =>
    intro i x h
    cases i with
    | zero =>
      simp only [List.getElem?_cons_zero, Option.some.injEq] at h
      subst h
      exact .inr ⟨0, by simp, by simpa using t⟩
    | succ i =>
      simp only [List.getElem?_cons_succ] at h
      rcases ih i x h with ⟨hp, h'⟩ | ⟨j, hj, h'⟩
      · exact .inl ⟨hp, by simpa using Thinned.keep y h'⟩
      · exact .inr ⟨j + 1, by simpa using hj, by simpa using Thinned.keep y h'⟩
  | drop y hp t ih =>
    intro i x h
    cases i with
    | zero =>
      simp only [List.getElem?_cons_zero, Option.some.injEq] at h
      subst h
      exact .inl ⟨hp, by simpa using t⟩
    | succ i =>
      simp only [List.getElem?_cons_succ] at h
      rcases ih i x h with ⟨hq, h'⟩ | ⟨j, hj, h'⟩
      · exact .inl ⟨hq, by simpa using Thinned.drop y hp h'⟩
      · exact .inr ⟨j, hj, by simpa using Thinned.drop y hp h'⟩

end

/-! ## One message -/

variable {T : Type} [ContentCodec T] [DecidableEq T]

theorem filter_past {s : State T} {k r : Nat} (h : k < s.height ∨ k = s.height ∧ r < s.round) : s.filterMessage k r = true := by
  unfold State.filterMessage
  rw [if_pos h]

/-- Nothing happens; the handler may fail, but it panics only on a proposal whose leader cannot be computed. -/
theorem run_past {e : Env T} {s : State T} {m : OverlordMsg T} (h : Spec.Past s.height s.round m) :
    wp (runArm (.verified m)) e ⟨s, []⟩ (fun a w => a = true ∧ w = ⟨s, []⟩)
      (fun x w => w = ⟨s, []⟩ ∧ ¬ LeaderKnown e s m) := by
  unfold runArm handleMsg
  wps
  by_cases hp : s.consensusPower = false ∧ m.isRichStatus = false
  · simp [hp]
  · refine ⟨fun h' => absurd h' hp, fun _ => ?_⟩
    cases m with
    | signedProposal sp =>
      have hf : s.filterMessage sp.proposal.height sp.proposal.round = true := filter_past h
      simp only
      wps
      unfold handleSignedProposal verifyProposer verifyAddress filterSignedProposal
      wps
      refine ⟨fun _ => ⟨fun a _ => ⟨fun _ => ⟨fun hx => (by cases hx), fun _ => by simp⟩, fun _ => ⟨fun _ => by simp, fun hn => absurd hf hn⟩⟩,
        fun y hy => ⟨fun hx => by simpa [LeaderKnown, hx] using hx ▸ hy, fun _ => by simp⟩⟩, ?_⟩
      simp
    | aggregatedVote qc =>
      simp only
      wps
      unfold handleAggregatedVote
      wps
      have h' : qc.height < s.height ∨ qc.height = s.height ∧ qc.round < s.round ∧ (qc.voteType = .prevote ∨ qc.blockHash = []) := h
      refine ⟨fun _ => by simp, fun h1 => ⟨fun h2 => absurd h2 (by omega), fun _ => ⟨fun _ => by simp, fun h3 => ⟨fun _ => by simp, fun h4 => ?_⟩⟩⟩⟩
      rcases h' with h' | ⟨_, h5, h6 | h6⟩
      · exact absurd h' h1
      · exact absurd ⟨h6, h5⟩ h3
      · cases hv : qc.voteType with
        | prevote => exact absurd ⟨hv, h5⟩ h3
        | precommit => exact absurd ⟨hv, h6, h5⟩ h4
    | signedVote sv =>
      have hf : s.filterMessage sv.vote.height sv.vote.round = true := filter_past h
      simp only
      wps
      unfold handleSignedVote
      wps
      exact ⟨fun _ => by simp, fun hn => absurd hf hn⟩
    | signedChoke sc =>
      simp only
      wps
      unfold handleSignedChoke
      wps
      have h' : sc.choke.height < s.height ∨ sc.choke.height = s.height ∧ sc.choke.round < s.round := h
      refine ⟨fun _ => by simp, fun h1 => ⟨fun _ => by simp, fun h2 => absurd h' (by omega)⟩⟩
    | richStatus st =>
      have h' : st.height ≤ s.height := h
      simp only
      wps
      unfold gotoNewHeight
      wps
      exact ⟨fun _ => by simp, fun hn => absurd h' hn⟩
    | stop => exact h.elim

theorem past_idle (e : Env T) (s : State T) (m : OverlordMsg T) (h : Spec.Past s.height s.round m) :
    (runArm (.verified m) e ⟨s, []⟩).2 = ⟨s, []⟩ := by
  rcases wp_exists (run_past (e := e) h) with ⟨_, _, h1⟩ | ⟨_, _, h1⟩
  · exact h1.2
  · exact h1.1

theorem past_ok (e : Env T) (s : State T) (m : OverlordMsg T) (h : Spec.Past s.height s.round m) (hl : LeaderKnown e s m) :
    runArm (.verified m) e ⟨s, []⟩ = (.ok true, ⟨s, []⟩) := by
  rcases wp_exists (run_past (e := e) h) with ⟨a, h0, h1⟩ | ⟨_, _, h1⟩
  · exact Prod.ext (by rw [h0, h1.1]) h1.2
  · exact absurd hl h1.2

/-! ## Histories -/

theorem history {s : State T} {ins ins' : List (Env T × Input T)} (h : WithPast s ins ins') :
    s.after ins' = s.after ins ∧ s.trace ins' = s.trace ins := by
  induction h with
  | nil s => exact ⟨rfl, rfl⟩
  | same s x _ ih =>
    obtain ⟨e, i⟩ := x
    simp only [State.after, State.trace] at ih ⊢
    rcases hr : runArm i e ⟨s, []⟩ with ⟨_ | b, w⟩
    · exact ⟨rfl, rfl⟩
    · cases b
      · exact ⟨rfl, rfl⟩
      · have h1 := ih w.st (by rw [hr])
        exact ⟨h1.1, by simp only; rw [h1.2]⟩
  | past s e m hp hl _ ih =>
    simp only [State.after, State.trace, past_ok e s m hp hl]
    exact ⟨ih.1, by simpa using ih.2⟩

/-! ## Nodes -/

theorem over_past {k r : Nat} {m : OverlordMsg T} (h : Over k m) : Spec.Past k r m := by
  obtain ⟨j, h1, h2⟩ := h
  cases m <;> simp only [OverlordMsg.getHeight?, Option.some.injEq, reduceCtorEq] at h1 <;> subst h1
  · exact .inl h2
  · exact .inl h2
  · exact .inl h2
  · exact Nat.le_of_lt h2
  · exact .inl h2

theorem over_mono {k k' : Nat} (h : k ≤ k') {m : OverlordMsg T} (ho : Over k m) : Over k' m := by
  obtain ⟨j, h1, h2⟩ := ho
  exact ⟨j, h1, by omega⟩

/-- The node with other waiting messages. -/
def put (n : NodeSys T) (v : List (OverlordMsg T × Authority)) (w : List (OverlordMsg T)) : NodeSys T :=
  { n with verifying := v, verifiedQ := w }

theorem took_put (n : NodeSys T) (v : List (OverlordMsg T × Authority)) (w : List (OverlordMsg T)) (cut : Option Nat)
    (r : Except Err Bool × World T) :
    ∃ v2 w2, (n.took cut r).verifying = n.verifying ++ v2 ∧ (n.took cut r).verifiedQ = n.verifiedQ ++ w2 ∧
      (put n v w).took cut r = put (n.took cut r) (v ++ v2) (w ++ w2) := ⟨_, _, rfl, rfl, rfl⟩

theorem took_st (n : NodeSys T) (cut : Option Nat) (r : Except Err Bool × World T) : (n.took cut r).st = r.2.st := rfl

/-- After a step that handles an input both nodes are still the same. -/
theorem took_same {n : NodeSys T} {v : List (OverlordMsg T × Authority)} {w : List (OverlordMsg T)} {e : Env T} {i : Input T} (hi : i ≠ .start)
    (h1 : Thinned (fun x => Over n.st.height x.1) n.verifying v) (h2 : Thinned (Over n.st.height) n.verifiedQ w) (cut : Option Nat) :
    SameButOver (n.took cut (runArm i e ⟨n.st, []⟩)) ((put n v w).took cut (runArm i e ⟨n.st, []⟩)) := by
  obtain ⟨v2, w2, e1, e2, e3⟩ := took_put n v w cut (runArm i e ⟨n.st, []⟩)
  have hm : n.st.height ≤ (n.took cut (runArm i e ⟨n.st, []⟩)).st.height := C38_height_never_decreases e i n.st hi
  refine ⟨_, _, e3, ?_, ?_⟩
  · rw [e1]
    exact app v2 (mono (fun x => over_mono hm) h1)
  · rw [e2]
    exact app w2 (mono (fun x => over_mono hm) h2)

/-- A message was dropped: the node is as before, or it has gone down, and the other one crashes. -/
theorem gone {addr : Address} {n : NodeSys T} {v : List (OverlordMsg T × Authority)} {w : List (OverlordMsg T)} (hd : ¬ n.down = true)
    (h1 : Thinned (fun x => Over n.st.height x.1) n.verifying v) (h2 : Thinned (Over n.st.height) n.verifiedQ w) (cut : Option Nat)
    (r : Except Err Bool) :
    SameButOver (n.took cut (r, ⟨n.st, []⟩)) (put n v w) ∨
      ∃ a' m', (put n v w).act addr a' = some m' ∧ NothingOver (put n v w) a' ∧ SameButOver (n.took cut (r, ⟨n.st, []⟩)) m' := by
  have hc : cutTo cut ([] : List (Effect T)) = [] := by cases cut <;> simp [cutTo]
  have ht : ∃ b, n.took cut (r, ⟨n.st, []⟩) = { n with down := b } := by
    refine ⟨(n.took cut (r, ⟨n.st, []⟩)).down, ?_⟩
    unfold NodeSys.took NodeSys.absorb
    simp [hc, trigsOf]
  obtain ⟨b, hb⟩ := ht
  rw [hb]
  cases b with
  | false =>
    refine .inl ⟨v, w, ?_, h1, h2⟩
    simp only [put]
    simp only [Bool.not_eq_true] at hd
    rw [← hd]
  | true => exact .inr ⟨.crash, _, rfl, trivial, v, w, rfl, h1, h2⟩

/-- One step: the other node takes the same step, or none, or crashes (if the message about an earlier height panicked or the node crashed while
handling it). -/
theorem step {addr : Address} {n n' m : NodeSys T} {a : NAct T} (ha : n.act addr a = some n') (h : SameButOver n m) :
    SameButOver n' m ∨ ∃ a' m', m.act addr a' = some m' ∧ NothingOver m a' ∧ SameButOver n' m' := by
  obtain ⟨v, w, rfl, h1, h2⟩ := h
  cases a with
  | start p e cut =>
    refine .inr ⟨.start p e cut, n', ?_, trivial, n'.verifying, n'.verifiedQ, rfl, refl _, refl _⟩
    simp only [NodeSys.act] at ha ⊢
    exact ha
  | crash =>
    simp only [NodeSys.act, Option.some.injEq] at ha
    subst ha
    exact .inr ⟨.crash, _, rfl, trivial, v, w, rfl, h1, h2⟩
  | verifyDone c i =>
    simp only [NodeSys.act] at ha
    split at ha
    · cases ha
    · rename_i hd
      split at ha
      · cases ha
      · rename_i x au hx
        simp only [Option.some.injEq] at ha
        subst ha
        rcases take h1 i (x, au) hx with ⟨ho, ht⟩ | ⟨j, hj, ht⟩
        · refine .inl ⟨v, w, rfl, ht, ?_⟩
          dsimp only
          cases verifyTask c x au
          · simpa using h2
          · have := append h2 (Thinned.drop x ho Thinned.nil)
            simpa using this
        · refine .inr ⟨.verifyDone c j, _, ?_, trivial, v.eraseIdx j, w ++ (if verifyTask c x au then [x] else []), rfl, ht, app _ h2⟩
          simp only [NodeSys.act, hd, hj]
          rfl
  | checkDone i ok =>
    refine .inr ⟨.checkDone i ok, ?_⟩
    simp only [NodeSys.act] at ha ⊢
    split at ha
    · cases ha
    · rename_i hd
      split at ha
      · cases ha
      · rename_i hh r hash b hx
        simp only [Option.some.injEq] at ha
        subst ha
        rw [if_neg hd]
        exact ⟨_, rfl, trivial, v, w, rfl, h1, h2⟩
  | smr =>
    refine .inr ⟨.smr, ?_⟩
    simp only [NodeSys.act] at ha ⊢
    split at ha
    · cases ha
    · rename_i hd
      split at ha
      · cases ha
      · rename_i t q hx
        split at ha
        · cases ha
        · rename_i sys hs
          simp only [Option.some.injEq] at ha
          subst ha
          rw [if_neg hd]
          exact ⟨_, rfl, trivial, v, w, rfl, h1, h2⟩
  | set =>
    refine .inr ⟨.set, ?_⟩
    simp only [NodeSys.act] at ha ⊢
    split at ha
    · cases ha
    · rename_i hd
      rw [if_neg hd]
      rw [Option.map_eq_some_iff] at ha
      obtain ⟨sys, hs, rfl⟩ := ha
      rw [hs]
      exact ⟨_, rfl, trivial, v, w, rfl, h1, h2⟩
  | expire i =>
    refine .inr ⟨.expire i, ?_⟩
    simp only [NodeSys.act] at ha ⊢
    split at ha
    · cases ha
    · rename_i hd
      rw [if_neg hd]
      rw [Option.map_eq_some_iff] at ha
      obtain ⟨sys, hs, rfl⟩ := ha
      rw [hs]
      exact ⟨_, rfl, trivial, v, w, rfl, h1, h2⟩
  | fire i =>
    refine .inr ⟨.fire i, ?_⟩
    simp only [NodeSys.act] at ha ⊢
    split at ha
    · cases ha
    · rename_i hd
      rw [if_neg hd]
      rw [Option.map_eq_some_iff] at ha
      obtain ⟨sys, hs, rfl⟩ := ha
      rw [hs]
      exact ⟨_, rfl, trivial, v, w, rfl, h1, h2⟩
  | arm x e cut =>
    simp only [NodeSys.act] at ha
    split at ha
    · cases ha
    · rename_i hd
      split at ha
      · cases ha
      · rename_i i n1 ht
        simp only [Option.some.injEq] at ha
        subst ha
        cases x with
        | raw msg =>
          simp only [NodeSys.take, Option.some.injEq, Prod.mk.injEq] at ht
          obtain ⟨rfl, rfl⟩ := ht
          by_cases ho : msg.isRichStatus = true ∨ ¬ Over n.st.height msg
          · refine .inr ⟨.arm (.raw msg) e cut, (put n v w).took cut (runArm (.raw msg) e ⟨n.st, []⟩), ?_, ho, ?_⟩
            · simp only [NodeSys.act, hd, NodeSys.take]
              rfl
            · exact took_same (by simp) h1 h2 cut
          · rw [not_or, Classical.not_not] at ho
            obtain ⟨hr, j, hj, hlt⟩ := ho
            have hrun : runArm (.raw msg) e ⟨n.st, []⟩ = (.ok true, ⟨n.st, []⟩) := by
              have hw : wp (runArm (.raw msg)) e ⟨n.st, []⟩ (fun a w => a = true ∧ w = ⟨n.st, []⟩) (fun _ _ => False) := by
                unfold runArm
                simp only [Bool.not_eq_true] at hr
                simp only [hr, hj]
                wps
                refine ⟨fun h => by simp at h, fun _ => ⟨fun h => absurd h (by omega), fun _ => ⟨fun h => absurd h (by omega), fun _ => by simp⟩⟩⟩
              rcases wp_exists hw with ⟨a, h0, h3⟩ | ⟨_, _, h3⟩
              · exact Prod.ext (by rw [h0, h3.1]) h3.2
              · exact h3.elim
            rw [hrun]
            exact gone hd h1 h2 cut (.ok true)
        | event =>
          simp only [NodeSys.take] at ht
          split at ht
          · cases ht
          · rename_i ev q hq
            simp only [Option.some.injEq, Prod.mk.injEq] at ht
            obtain ⟨rfl, rfl⟩ := ht
            refine .inr ⟨.arm .event e cut, (put { n with stQ := q } v w).took cut (runArm (.event ev) e ⟨n.st, []⟩), ?_, trivial,
              took_same (n := { n with stQ := q }) (by simp) h1 h2 cut⟩
            simp only [NodeSys.act, hd, NodeSys.take, hq]
            rfl
        | resp =>
          simp only [NodeSys.take] at ht
          split at ht
          · cases ht
          · rename_i ev q hq
            simp only [Option.some.injEq, Prod.mk.injEq] at ht
            obtain ⟨rfl, rfl⟩ := ht
            refine .inr ⟨.arm .resp e cut, (put { n with respQ := q } v w).took cut (runArm (.resp ev) e ⟨n.st, []⟩), ?_, trivial,
              took_same (n := { n with respQ := q }) (by simp) h1 h2 cut⟩
            simp only [NodeSys.act, hd, NodeSys.take, hq]
            rfl
        | verified =>
          simp only [NodeSys.take] at ht
          split at ht
          · cases ht
          · rename_i msg q hq
            simp only [Option.some.injEq, Prod.mk.injEq] at ht
            obtain ⟨rfl, rfl⟩ := ht
            rw [hq] at h2
            rcases cons h2 with ⟨ho, h3⟩ | ⟨k, rfl, h3⟩
            · have hi := past_idle e n.st msg (over_past ho)
              have hr : runArm (.verified msg) e ⟨n.st, []⟩ = ((runArm (.verified msg) e ⟨n.st, []⟩).1, ⟨n.st, []⟩) := Prod.ext rfl hi
              rw [hr]
              exact gone (n := { n with verifiedQ := q }) hd h1 h3 cut _
            · refine .inr ⟨.arm .verified e cut, (put { n with verifiedQ := q } v k).took cut (runArm (.verified msg) e ⟨n.st, []⟩), ?_, trivial,
                took_same (n := { n with verifiedQ := q }) (by simp) h1 h3 cut⟩
              simp only [NodeSys.act, hd, NodeSys.take]
              rfl

/-! ## The other direction -/

section
variable {α : Type} {p : α → Prop}

theorem pops {l : List α} {x : α} {k : List α} (t : Thinned p l (x :: k)) : ∃ l1 l2, l = l1 ++ x :: l2 ∧ (∀ y ∈ l1, p y) ∧ Thinned p l2 k := by
  generalize hk : x :: k = k0 at t
  induction t with
  | nil => cases hk
  | keep y t ih =>
    cases hk
    exact ⟨[], _, rfl, by simp, t⟩
  | drop y hp t ih =>
    obtain ⟨l1, l2, rfl, h1, h2⟩ := ih hk
    exact ⟨y :: l1, l2, rfl, by simpa using ⟨hp, h1⟩, h2⟩

theorem find {l l' : List α} (t : Thinned p l l') :
    ∀ (j : Nat) (x : α), l'[j]? = some x → ∃ i, l[i]? = some x ∧ Thinned p (l.eraseIdx i) (l'.eraseIdx j) := by
  induction t with
  | nil => intro i x h; simp at h
  | keep y t ih =>
    intro j x h
    cases j with
    | zero => exact ⟨0, by simpa using h, by simpa using t⟩
    | succ j =>
      simp only [List.getElem?_cons_succ] at h
      obtain ⟨i, hi, h'⟩ := ih j x h
      exact ⟨i + 1, by simpa using hi, by simpa using Thinned.keep y h'⟩
  | drop y hp t ih =>
    intro j x h
    obtain ⟨i, hi, h'⟩ := ih j x h
    exact ⟨i + 1, by simpa using hi, by simpa using Thinned.drop y hp h'⟩

end

/-- Answers that commit, save and sign nothing. -/
def mute (mode : LeaderMode) : Env T :=
  { crypto := ⟨fun b => b, fun _ => none, fun _ _ => none, fun _ _ _ => false, fun _ _ _ => false⟩, mode := mode, sh := .same,
    walSave := fun _ => false, walLoad := none, getBlock := fun _ => none, commit := fun _ _ => none }

theorem mute_sound (mode : LeaderMode) (n : NodeSys T) : SoundInput mode n (.arm .verified (mute mode) none) :=
  ⟨rfl, fun _ _ _ h => (by cases h), by simp, by simp⟩

/-- The messages about earlier heights at the front of the queue are taken up. -/
theorem drop_front {addr : Address} {mode : LeaderMode} : ∀ (l1 : List (OverlordMsg T)) (n : NodeSys T) (l2 : List (OverlordMsg T)),
    n.down = false → NoPanic.Au mode n.st.authority → n.verifiedQ = l1 ++ l2 → (∀ y ∈ l1, Over n.st.height y) →
    ∃ as, n.run addr as = some { n with verifiedQ := l2 } ∧ Along (SoundInput mode) addr n as
  | [], n, l2, _, _, h, _ => ⟨[], by rw [← List.nil_append l2, ← h]; rfl, trivial⟩
  | x :: l1, n, l2, hd, ha, h, ho => by
    have hx : runArm (.verified x) (mute mode) ⟨n.st, []⟩ = (.ok true, ⟨n.st, []⟩) := by
      refine past_ok _ _ _ (over_past (ho x (by simp))) fun sp _ hg => ?_
      exact NoPanic.au_ne ha _ _ hg rfl
    have h1 : n.act addr (.arm .verified (mute mode) none) = some { n with verifiedQ := l1 ++ l2 } := by
      simp only [NodeSys.act, hd, NodeSys.take, h, List.cons_append, hx]
      simp [NodeSys.took, NodeSys.absorb, cutTo, trigsOf]
    obtain ⟨as, h2, h3⟩ := drop_front (addr := addr) (mode := mode) l1 { n with verifiedQ := l1 ++ l2 } l2 hd ha rfl
      (fun y hy => ho y (List.mem_cons_of_mem _ hy))
    refine ⟨.arm .verified (mute mode) none :: as, ?_, mute_sound mode n, fun n' hn' => ?_⟩
    · simp only [NodeSys.run, h1]
      exact h2
    · rw [h1, Option.some.injEq] at hn'
      subst hn'
      exact h3

theorem run_app {addr : Address} : ∀ (as : List (NAct T)) {n n1 : NodeSys T} {bs : List (NAct T)}, n.run addr as = some n1 →
    n.run addr (as ++ bs) = n1.run addr bs
  | [], n, n1, bs, h => by simp only [NodeSys.run, Option.some.injEq] at h; subst h; rfl
  | a :: as, n, n1, bs, h => by
    simp only [NodeSys.run, List.cons_append] at h ⊢
    split at h
    · cases h
    · rename_i n2 h2
      exact run_app as h

theorem along_append {ok : NodeSys T → NAct T → Prop} {addr : Address} : ∀ (as : List (NAct T)) {n n1 : NodeSys T} {bs : List (NAct T)},
    n.run addr as = some n1 → Along ok addr n as → Along ok addr n1 bs → Along ok addr n (as ++ bs)
  | [], n, n1, bs, h, _, h2 => by simp only [NodeSys.run, Option.some.injEq] at h; subst h; exact h2
  | a :: as, n, n1, bs, h, h1, h2 => by
    refine ⟨h1.1, fun n2 hn2 => along_append as ?_ (h1.2 n2 hn2) h2⟩
    simp only [NodeSys.run, hn2] at h
    exact h

/-- One step of the node without the messages: the node with the messages drops those at the front of its queue first, if it must. -/
theorem back {addr : Address} {mode : LeaderMode} {n m m' : NodeSys T} {a : NAct T} (ha : m.act addr a = some m') (h : SameButOver n m)
    (hs : SoundInput mode m a) (hi : n.down = false → NoPanic.Au mode n.st.authority) :
    ∃ as n', n.run addr as = some n' ∧ Along (SoundInput mode) addr n as ∧ SameButOver n' m' := by
  have one : ∀ {a : NAct T} {n' : NodeSys T}, n.act addr a = some n' → SoundInput mode n a → SameButOver n' m' →
      ∃ as n', n.run addr as = some n' ∧ Along (SoundInput mode) addr n as ∧ SameButOver n' m' := by
    intro a n' h1 h2 h3
    exact ⟨[a], n', by simp [NodeSys.run, h1], ⟨h2, fun _ _ => trivial⟩, h3⟩
  obtain ⟨v, w, rfl, h1, h2⟩ := h
  cases a with
  | start p e cut =>
    refine one (a := .start p e cut) (n' := m') ?_ hs ⟨m'.verifying, m'.verifiedQ, rfl, refl _, refl _⟩
    simp only [NodeSys.act] at ha ⊢
    exact ha
  | crash =>
    simp only [NodeSys.act, Option.some.injEq] at ha
    subst ha
    exact one (a := .crash) rfl trivial ⟨v, w, rfl, h1, h2⟩
  | verifyDone c j =>
    simp only [NodeSys.act] at ha
    split at ha
    · cases ha
    · rename_i hd
      split at ha
      · cases ha
      · rename_i x au hx
        simp only [Option.some.injEq] at ha
        subst ha
        obtain ⟨i, hi, ht⟩ := find h1 j (x, au) hx
        refine one (a := .verifyDone c i) (n' := { n with verifying := n.verifying.eraseIdx i, verifiedQ := n.verifiedQ ++ if verifyTask c x au then [x] else [] })
          ?_ trivial ⟨v.eraseIdx j, w ++ (if verifyTask c x au then [x] else []), rfl, ht, app _ h2⟩
        simp only [NodeSys.act, hi]
        exact if_neg hd
  | checkDone i ok =>
    simp only [NodeSys.act] at ha
    split at ha
    · cases ha
    · rename_i hd
      split at ha
      · cases ha
      · rename_i hh r hash b hx
        simp only [Option.some.injEq] at ha
        subst ha
        refine one (a := .checkDone i ok) (n' := { n with checking := n.checking.eraseIdx i, respQ := n.respQ ++ if ok then [{ height := hh, round := r, blockHash := hash, isPass := true }] else [] }) ?_ trivial ⟨v, w, rfl, h1, h2⟩
        simp only [NodeSys.act, hx]
        exact if_neg hd
  | smr =>
    simp only [NodeSys.act] at ha
    split at ha
    · cases ha
    · rename_i hd
      split at ha
      · cases ha
      · rename_i t q hx
        split at ha
        · cases ha
        · rename_i sys hs
          simp only [Option.some.injEq] at ha
          subst ha
          refine one (a := .smr) (n' := { n with sys := sys, stQ := n.stQ ++ (n.sys.smr.onTrigger t).outs.filterMap Out.toState }) ?_ trivial ⟨v, w, rfl, h1, h2⟩
          simp only [NodeSys.act, hx, hs]
          exact if_neg hd
  | set =>
    simp only [NodeSys.act] at ha
    split at ha
    · cases ha
    · rename_i hd
      rw [Option.map_eq_some_iff] at ha
      obtain ⟨sys, hs, rfl⟩ := ha
      refine one (a := .set) (n' := { n with sys := sys }) ?_ trivial ⟨v, w, rfl, h1, h2⟩
      simp only [NodeSys.act, hs]
      exact if_neg hd
  | expire i =>
    simp only [NodeSys.act] at ha
    split at ha
    · cases ha
    · rename_i hd
      rw [Option.map_eq_some_iff] at ha
      obtain ⟨sys, hs, rfl⟩ := ha
      refine one (a := .expire i) (n' := { n with sys := sys }) ?_ trivial ⟨v, w, rfl, h1, h2⟩
      simp only [NodeSys.act, hs]
      exact if_neg hd
  | fire i =>
    simp only [NodeSys.act] at ha
    split at ha
    · cases ha
    · rename_i hd
      rw [Option.map_eq_some_iff] at ha
      obtain ⟨sys, hs, rfl⟩ := ha
      refine one (a := .fire i) (n' := { n with sys := sys }) ?_ trivial ⟨v, w, rfl, h1, h2⟩
      simp only [NodeSys.act, hs]
      exact if_neg hd
  | arm x e cut =>
    simp only [NodeSys.act] at ha
    split at ha
    · cases ha
    · rename_i hd
      split at ha
      · cases ha
      · rename_i i n1 ht
        simp only [Option.some.injEq] at ha
        subst ha
        cases x with
        | raw msg =>
          simp only [NodeSys.take, Option.some.injEq, Prod.mk.injEq] at ht
          obtain ⟨rfl, rfl⟩ := ht
          refine one (a := .arm (.raw msg) e cut) (n' := n.took cut (runArm (.raw msg) e ⟨n.st, []⟩)) ?_ hs (took_same (by simp) h1 h2 cut)
          simp only [NodeSys.act, NodeSys.take]
          exact if_neg hd
        | event =>
          simp only [NodeSys.take] at ht
          split at ht
          · cases ht
          · rename_i ev q hq
            simp only [Option.some.injEq, Prod.mk.injEq] at ht
            obtain ⟨rfl, rfl⟩ := ht
            refine one (a := .arm .event e cut) (n' := NodeSys.took { n with stQ := q } cut (runArm (.event ev) e ⟨n.st, []⟩)) ?_ hs
              (took_same (n := { n with stQ := q }) (by simp) h1 h2 cut)
            simp only [NodeSys.act, NodeSys.take, hq]
            exact if_neg hd
        | resp =>
          simp only [NodeSys.take] at ht
          split at ht
          · cases ht
          · rename_i ev q hq
            simp only [Option.some.injEq, Prod.mk.injEq] at ht
            obtain ⟨rfl, rfl⟩ := ht
            refine one (a := .arm .resp e cut) (n' := NodeSys.took { n with respQ := q } cut (runArm (.resp ev) e ⟨n.st, []⟩)) ?_ hs
              (took_same (n := { n with respQ := q }) (by simp) h1 h2 cut)
            simp only [NodeSys.act, NodeSys.take, hq]
            exact if_neg hd
        | verified =>
          simp only [NodeSys.take] at ht
          split at ht
          · cases ht
          · rename_i msg q
            simp only [Option.some.injEq, Prod.mk.injEq] at ht
            obtain ⟨rfl, rfl⟩ := ht
            obtain ⟨l1, l2, e1, e2, e3⟩ := pops h2
            have hd' : n.down = false := by simpa using hd
            obtain ⟨as, r1, r2⟩ := drop_front (addr := addr) l1 n (msg :: l2) hd' (hi hd') e1 e2
            have last : ({ n with verifiedQ := msg :: l2 } : NodeSys T).act addr (.arm .verified e cut) =
                some (NodeSys.took { n with verifiedQ := l2 } cut (runArm (.verified msg) e ⟨n.st, []⟩)) := by
              simp only [NodeSys.act, NodeSys.take]
              exact if_neg hd
            refine ⟨as ++ [.arm .verified e cut], _, ?_, ?_, took_same (n := { n with verifiedQ := l2 }) (by simp) h1 e3 cut⟩
            · rw [run_app as r1]
              simp [NodeSys.run, last]
            · exact along_append as r1 r2 ⟨hs, fun _ _ => trivial⟩

end Past
end Overlord
