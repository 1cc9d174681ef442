import Verif.Proofs.NoPanicNode
import Verif.Props.Node

/-!
# C48: no input ends or panics a node
-/

set_option linter.unusedVariables false
set_option linter.unusedSectionVars false

namespace Overlord
open Spec

section
variable {T : Type} [ContentCodec T] [DecidableEq T]

/-- **C48.** In every history of a node whose application returns usable validator lists and contents that encode, a node that is
up stays up whatever it takes up next: any message in any order, genuine or forged, any event, block check result or status,
whatever storage, crypto and application answer. The voting state machine can handle whatever trigger is next in its channel,
and the timer whatever event is next in its. -/
theorem C48_no_input_panics (hE : Encodes T) (mode : LeaderMode) (addr : Address) (as : List (NAct T)) (n : NodeSys T)
    (h : (NodeSys.new addr).run addr as = some n) (hs : Along (SoundInput mode) addr (NodeSys.new addr) as) (hup : n.down = false) :
    (∀ a e n', SoundInput mode n (.arm a e none) → n.act addr (.arm a e none) = some n' → n'.down = false) ∧
    (n.sys.trigQ ≠ [] → ∃ n', n.act addr .smr = some n' ∧ n'.down = false) ∧
    (n.sys.evtQ ≠ [] → ∃ n', n.act addr .set = some n' ∧ n'.down = false) := by
  have hi := NoPanic.inv_run hE h hs hup
  refine ⟨fun a e n' hs h => (NoPanic.inv_step hE hi hup hs rfl h).2, fun hq => ?_, fun hq => ?_⟩
  · obtain ⟨t, q, hq⟩ := List.exists_cons_of_ne_nil hq
    obtain ⟨h1, h2, h3⟩ := hi.tr t (by rw [hq]; simp) n.sys.smr
    have : ∃ sys, n.sys.act .smr = some sys := by
      simp only [TimerSys.act, hq]
      cases hr : (n.sys.smr.onTrigger t).res with
      | ok => exact ⟨_, rfl⟩
      | err x => exact ⟨_, rfl⟩
      | ended => exact absurd hr h1
      | panic => exact absurd hr h2
    obtain ⟨sys, hsys⟩ := this
    simp only [NodeSys.act, hup, Bool.false_eq_true, if_false, hq, hsys]
    exact ⟨_, rfl, rfl⟩
  · obtain ⟨x, q, hq⟩ := List.exists_cons_of_ne_nil hq
    have hx := hi.tv x (by rw [hq]; simp)
    have : ∃ sys, n.sys.act .set = some sys := by
      simp only [TimerSys.act, hq]
      cases x with
      | stop => exact absurd rfl hx
      | _ => exact ⟨_, rfl⟩
    obtain ⟨sys, hsys⟩ := this
    simp only [NodeSys.act, hup, Bool.false_eq_true, if_false, hsys]
    exact ⟨_, rfl, rfl⟩

/-- **C48, starts.** A node that is down comes up at every start, whatever was loaded (no record, a failure of the storage, bytes
that do not decode, any record). -/
theorem C48_start_succeeds (hE : Encodes T) (mode : LeaderMode) (addr : Address) (n : NodeSys T) (p : StartParams) (e : Env T)
    (hd : n.down = true) (hs : SoundInput mode n (.start p e none)) :
    ∃ n', n.act addr (.start p e none) = some n' ∧ n'.down = false := by
  have : ∃ n', n.act addr (.start p e none) = some n' := by
    simp only [NodeSys.act, hd, if_true]
    split <;> exact ⟨_, rfl⟩
  obtain ⟨n', h⟩ := this
  exact ⟨n', h, (NoPanic.start_up hE hs h).2⟩

/-- **C48, histories.** Under the same assumptions a node is up if and only if it was started and has not crashed since. -/
theorem C48_up_unless_crashed (hE : Encodes T) (mode : LeaderMode) (addr : Address) (as : List (NAct T)) (n : NodeSys T)
    (h : (NodeSys.new addr).run addr as = some n) (hs : Along (SoundInput mode) addr (NodeSys.new addr) as) :
    n.down = false ↔ ∃ pre p e post, as = pre ++ .start p e none :: post ∧ ∀ a ∈ post, crashStep a = false := by
  have key : ∀ (as : List (NAct T)) (n : NodeSys T), (NodeSys.new addr).run addr as = some n →
      (Along (SoundInput mode) addr (NodeSys.new addr) as → (n.down = false ↔ ∃ pre p e post, as = pre ++ .start p e none :: post ∧ ∀ a ∈ post, crashStep a = false)) := by
    refine life_inv ?_ ?_
    · intro _
      constructor
      · intro hn; cases hn
      · rintro ⟨pre, p, e, post, h, -⟩; simp at h
    · intro as n a n' hr ih ha hs
      obtain ⟨hs1, hs2⟩ := NoPanic.along_snoc hs hr
      have ih := ih hs1
      have hinv := NoPanic.inv_run hE hr hs1
      constructor
      · intro hn
        cases hd : n.down with
        | true =>
          obtain ⟨p, e, rfl⟩ := NoPanic.down_stays hd ha hn
          exact ⟨as, p, e, [], rfl, by simp⟩
        | false =>
          obtain ⟨pre, p, e, post, rfl, hp⟩ := ih.1 hd
          have hc : crashStep a = false := by
            cases hc : crashStep a with
            | false => rfl
            | true => rw [NoPanic.crash_down (mode := mode) hE hc ha] at hn; cases hn
          refine ⟨pre, p, e, post ++ [a], by simp, fun b hb => ?_⟩
          rcases List.mem_append.1 hb with hb | hb
          · exact hp b hb
          · rw [List.mem_singleton.1 hb]; exact hc
      · rintro ⟨pre, p, e, post, heq, hp⟩
        rcases List.eq_nil_or_concat post with rfl | ⟨post', b, rfl⟩
        · obtain ⟨-, h2⟩ := List.append_inj' (t₁ := [a]) (t₂ := [NAct.start p e none]) heq rfl
          cases h2
          exact (NoPanic.start_up hE hs2 ha).2
        · have heq : as ++ [a] = (pre ++ .start p e none :: post') ++ [b] := by simpa using heq
          obtain ⟨rfl, h2⟩ := List.append_inj' heq rfl
          cases h2
          have hd : n.down = false := ih.2 ⟨pre, p, e, post', rfl, fun c hc => hp c (by simp [hc])⟩
          exact (NoPanic.inv_step hE (hinv hd) hd hs2 (hp a (by simp)) ha).2
  exact key as n h hs

end

/-! ### The assumptions are met, and are needed -/

namespace StDemo

theorem usable_nodes : Usable .rotation nodes := by constructor <;> decide

/-- `SoundInput`, for environments that answer commits like `env`. -/
theorem sound_arm {n : NodeSys C} {a : Arm C} {cut : Option Nat} (h : a ≠ .raw .stop) (hr : ∀ st, a = .raw (.richStatus st) → st.authorityList = nodes) :
    SoundInput .rotation n (.arm a env cut) :=
  ⟨rfl, fun k c st hst => by cases hst; exact usable_nodes, h, fun st hst => by rw [hr st hst]; exact usable_nodes⟩

theorem along_of_all {ok : NodeSys C → NAct C → Prop} {as : List (NAct C)} (h : ∀ n, ∀ a ∈ as, ok n a) : ∀ n, Along ok [1] n as := by
  induction as with
  | nil => intro n; trivial
  | cons a as ih => intro n; exact ⟨h n a (by simp), fun n' _ => ih (fun m b hb => h m b (by simp [hb])) n'⟩

/-- The life of `Props/Node`: two starts, a crash, a restored record. -/
theorem life_sound : Along (SoundInput .rotation) [1] (NodeSys.new [1]) (life none) := by
  refine along_of_all (fun n a ha => ?_) _
  have hwal : ∀ b, (envRestart prevoteRec).walLoad = some (some b) → decWalInfo (T := C) b ≠ .error .panic := by
    intro b hb
    have : b = (encWalInfo prevoteRec).getD [] := by
      have := Option.some.inj hb
      rw [this]; rfl
    subst this
    decide +kernel
  have hcm : ∀ (k : Nat) (c : Commit C) st, env.commit k c = some st → Usable .rotation st.authorityList :=
    fun k c st hst => by cases hst; exact usable_nodes
  simp only [life, deliver, List.mem_append, List.mem_cons, List.not_mem_nil, or_false] at ha
  rcases ha with ((((((rfl | rfl | rfl | rfl) | rfl | rfl | rfl | rfl) | rfl | rfl | rfl) | rfl | rfl) | rfl | rfl | rfl) | rfl | rfl | rfl | rfl)
  all_goals first
    | trivial
    | exact sound_arm (by simp) (by simp)
    | exact ⟨rfl, hcm, usable_nodes, hwal⟩
    | exact ⟨rfl, hcm, usable_nodes, fun b hb => by cases hb⟩

/-- A history with proposals, certificates, votes, a crash and a restart meets the assumptions of all three theorems. -/
example : Encodes C ∧ Along (SoundInput .rotation) [1] (NodeSys.new [1]) (life none) ∧
    ∃ n, (NodeSys.new [1]).run [1] (life none).dropLast = some n ∧ n.down = false :=
  ⟨fun c => rfl, life_sound, by
    have h : (match (NodeSys.new [1]).run [1] (life none).dropLast with
      | some n => decide (n.down = false)
      | none => false) = true := by decide +kernel
    split at h
    · exact ⟨_, by assumption, by simpa using h⟩
    · cases h⟩

/-- An application that answers a commit with no validators. -/
def envEmpty : Env C :=
  { env with commit := fun k _ => some { height := k + 1, interval := none, timerConfig := none, authorityList := [] } }

/-- The node of a life up to the commit of block `[5]`. -/
def emptied : List (NAct C) :=
  [.start params env none] ++ deliver (.signedProposal (prop 2 7 0 [5, 5] [5])) ++
  [.checkDone 0 true, .arm .resp env none] ++
  deliver (.aggregatedVote (cert [2, 3, 4] 7 0 .precommit [5])) ++
  [.smr, .arm .event env none, .smr, .arm .event envEmpty none]

end StDemo

/-- The assumption on validator lists is needed: an empty list in the answer to a commit panics the node's main task. -/
theorem C48_empty_list_panics :
    ∃ n, (NodeSys.new [1]).run [1] StDemo.emptied = some n ∧ n.down = true ∧ ∀ a ∈ StDemo.emptied, crashStep a = false := by
  have h : (match (NodeSys.new [1]).run [1] StDemo.emptied with
      | some n => n.down && StDemo.emptied.all fun a => !crashStep a
      | none => false) = true := by decide +kernel
  split at h
  · rename_i n hn
    simp only [Bool.and_eq_true, List.all_eq_true, Bool.not_eq_true'] at h
    exact ⟨n, hn, h.1, h.2⟩
  · cases h

end Overlord
