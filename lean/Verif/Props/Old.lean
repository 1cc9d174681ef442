import Verif.Proofs.Old
import Verif.Props.NoGap

/-!
# C76: what is over is over
-/

set_option linter.unusedVariables false
set_option linter.unusedSectionVars false

namespace Overlord
open M Spec

variable {T : Type} [ContentCodec T] [DecidableEq T]

/-- **C76.** A verified message about the past changes nothing and does nothing, in every state. -/
theorem C76_past_is_ignored (e : Env T) (s : State T) (m : OverlordMsg T) (h : Past s.height s.round m) :
    next e (.verified m) s = s ∧ effects e (.verified m) s = [] := by
  unfold next effects
  rw [Past.past_idle e s m h]
  exact ⟨rfl, rfl⟩

/-- **C76.** Messages about the past can be added to a history anywhere, in any number: the node ends in the same state (or
stops at the same point), and does the same. -/
theorem C76_past_leaves_history (s : State T) (ins ins' : List (Env T × Input T)) (h : WithPast s ins ins') :
    s.after ins' = s.after ins ∧ s.trace ins' = s.trace ins := Past.history h

/-- **C76.** Messages about earlier heights that still wait in a node, checked or not, make nothing possible: whatever the node can
go on to do, with further messages about earlier heights, crashes and restarts, the same node without them can do too, with no further message
about an earlier height. -/
theorem C76_waiting_messages_enable_nothing (addr : Address) (as : List (NAct T)) (n m n' : NodeSys T) (h : SameButOver n m)
    (hr : n.run addr as = some n') :
    ∃ as' m', m.run addr as' = some m' ∧ Along (fun x a => NothingOver x a) addr m as' ∧ SameButOver n' m' ∧ m'.log = n'.log ∧
      as'.length ≤ as.length := by
  induction as generalizing n m with
  | nil =>
    simp only [NodeSys.run, Option.some.injEq] at hr
    subst hr
    obtain ⟨v, w, rfl, h1, h2⟩ := h
    exact ⟨[], _, rfl, trivial, ⟨v, w, rfl, h1, h2⟩, rfl, Nat.le_refl _⟩
  | cons a as ih =>
    simp only [NodeSys.run] at hr
    split at hr
    · cases hr
    · rename_i n1 ha
      rcases Past.step ha h with h' | ⟨a', m1, ha', ho, h'⟩
      · obtain ⟨as', m', h1, h2, h3, h4, h5⟩ := ih n1 m h' hr
        exact ⟨as', m', h1, h2, h3, h4, Nat.le_succ_of_le h5⟩
      · obtain ⟨as', m', h1, h2, h3, h4, h5⟩ := ih n1 m1 h' hr
        refine ⟨a' :: as', m', ?_, ⟨ho, ?_⟩, h3, h4, Nat.succ_le_succ h5⟩
        · simp only [NodeSys.run, ha']
          exact h1
        · intro x hx
          rw [ha', Option.some.injEq] at hx
          subst hx
          exact h2

/-- **C76.** For every life of a node, in which messages about earlier heights may arrive at any time, there is a life in which none
arrives and in which the node does the same: the same votes, proposals, records, commits and restarts, in the same order. -/
theorem C76_same_life_without (addr : Address) (as : List (NAct T)) (n : NodeSys T) (hr : (NodeSys.new addr).run addr as = some n) :
    ∃ as' n', (NodeSys.new addr).run addr as' = some n' ∧ Along (fun x a => NothingOver x a) addr (NodeSys.new addr) as' ∧
      n'.log = n.log ∧ n'.st = n.st ∧ n'.sys = n.sys ∧ n'.down = n.down := by
  obtain ⟨as', m', h1, h2, ⟨v, w, rfl, _, _⟩, _, _⟩ :=
    C76_waiting_messages_enable_nothing addr as (NodeSys.new addr) (NodeSys.new addr) n
      ⟨_, _, rfl, Past.refl _, Past.refl _⟩ hr
  exact ⟨as', _, h1, h2, rfl, rfl, rfl, rfl⟩

/-- **C76.** The other way round: messages about earlier heights that wait in a node stop nothing. Whatever the node without them
can go on to do, the node with them can do too (it takes them up in between, and goes on). The conditions are those of C48: the application's
validator lists are usable. -/
theorem C76_waiting_messages_stop_nothing (hE : Encodes T) (mode : LeaderMode) (addr : Address) (as : List (NAct T)) :
    ∀ (as0 : List (NAct T)) (n m m' : NodeSys T), (NodeSys.new addr).run addr as0 = some n →
      Along (SoundInput mode) addr (NodeSys.new addr) as0 → SameButOver n m → m.run addr as = some m' →
      Along (SoundInput mode) addr m as →
      ∃ as' n', n.run addr as' = some n' ∧ Along (SoundInput mode) addr n as' ∧ SameButOver n' m' ∧ n'.log = m'.log := by
  induction as with
  | nil =>
    intro as0 n m m' hr0 hs0 h hr hs
    simp only [NodeSys.run, Option.some.injEq] at hr
    subst hr
    obtain ⟨v, w, rfl, h1, h2⟩ := h
    exact ⟨[], n, rfl, trivial, ⟨v, w, rfl, h1, h2⟩, rfl⟩
  | cons a as ih =>
    intro as0 n m m' hr0 hs0 h hr hs
    simp only [NodeSys.run] at hr
    split at hr
    · cases hr
    · rename_i m1 ha
      obtain ⟨as1, n1, r1, s1, h'⟩ := Past.back ha h hs.1 (fun hd => (NoPanic.inv_run hE hr0 hs0 hd).au)
      obtain ⟨as2, n', r2, s2, h3, h4⟩ := ih (as0 ++ as1) n1 m1 m' (by rw [Past.run_app as0 hr0]; exact r1)
        (Past.along_append as0 hr0 hs0 s1) h' hr (hs.2 m1 ha)
      exact ⟨as1 ++ as2, n', by rw [Past.run_app as1 r1]; exact r2, Past.along_append as1 r1 s1 s2, h3, h4⟩

/-! ## The hypotheses can be met -/

namespace StDemo

def status8 : OverlordMsg C := .richStatus { height := 8, interval := none, timerConfig := none, authorityList := nodes }

/-- A vote and a proposal for height 7 arrive, the vote is checked, and a status takes the node to height 8. -/
def leftBehind : List (NAct C) :=
  [.start params env none, .arm (.raw status8) env none, .arm (.raw (.signedVote (vote 3 7 0 .prevote [5]))) env none,
   .arm (.raw (.signedProposal (prop 2 7 0 [5, 5] [5]))) env none, .verifyDone (crypto [1]) 0, .arm .verified env none]

/-- The vote and the proposal wait in the node, which has gone on to height 8. -/
example : ∃ n, (NodeSys.new [1]).run [1] leftBehind = some n ∧ n.down = false ∧ n.st.height = 8 ∧ n.verifying.length = 1 ∧
    n.verifiedQ.length = 1 ∧ SameButOver n { n with verifying := [], verifiedQ := [] } := by
  have hd : (match (NodeSys.new [1]).run [1] leftBehind with
      | some n => decide (n.down = false ∧ n.st.height = 8 ∧ n.verifiedQ = [.signedVote (vote 3 7 0 .prevote [5])] ∧
          n.verifying.map Prod.fst = [.signedProposal (prop 2 7 0 [5, 5] [5])])
      | none => false) = true := by decide +kernel
  split at hd
  · rename_i n hn
    obtain ⟨h1, h2, h3, h4⟩ := of_decide_eq_true hd
    obtain ⟨x, hx, h4⟩ := List.map_eq_singleton_iff.1 h4
    refine ⟨n, hn, h1, h2, by rw [hx]; rfl, by rw [h3]; rfl, [], [], rfl, ?_, ?_⟩
    · rw [hx]
      refine .drop _ ⟨7, ?_, ?_⟩ .nil
      · rw [h4]; rfl
      · rw [h2]; decide
    · rw [h3]
      refine .drop _ ⟨7, rfl, ?_⟩ .nil
      rw [h2]; decide
  · cases hd

/-- At height 8, a certificate, a proposal and a choke for height 7 come too late. -/
example : WithPast (T := C) { st0 with height := 8 } [(env, .verified (.signedVote (vote 3 8 0 .prevote [9])))]
    [(env, .verified (.aggregatedVote (cert [2, 3, 4] 7 0 .precommit [5]))), (env, .verified (.signedProposal (prop 2 7 0 [5, 5] [5]))),
     (env, .verified (.signedVote (vote 3 8 0 .prevote [9]))), (env, .verified (.signedVote (vote 4 7 0 .prevote [5])))] := by
  refine .past _ _ _ (.inl (by decide)) (fun sp h => by cases h) (.past _ _ _ (.inl (by decide)) (fun sp h => ?_) (.same _ _ fun t ht => ?_))
  · cases h
    decide +kernel
  · have h8 : t.height = 8 := by
      have hd : (match (State.after { st0 with height := 8 } [(env, .verified (.signedVote (vote 3 8 0 .prevote [9])))] : Option (State C)) with
        | some t => decide (t.height = 8)
        | none => false) = true := by decide +kernel
      rw [ht] at hd
      exact of_decide_eq_true hd
    exact .past _ _ _ (.inl (by rw [h8]; decide)) (fun sp h => by cases h) (.nil _)

end StDemo

end Overlord
