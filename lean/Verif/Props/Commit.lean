import Verif.Props.State4
import Verif.Proofs.Leader

/-!
# C07: a height is committed at most once
-/

set_option linter.unusedSimpArgs false
set_option linter.unusedVariables false
set_option linter.unusedSectionVars false
set_option linter.unnecessarySeqFocus false

namespace Overlord
open M Spec

variable {T : Type} [ContentCodec T] [DecidableEq T]

theorem pickIndex_lt (tmp d i acc : Nat) (ws : List Nat) :
    pickIndex tmp d i acc ws = 0 ∨ pickIndex tmp d i acc ws < i + ws.length := by
  induction ws generalizing i acc with
  | nil => left; rfl
  | cons w ws ih =>
    simp only [pickIndex, List.length_cons]
    split
    · right; omega
    · rcases ih (i + 1) ((acc + w) % U64) with h | h
      · left; exact h
      · right; omega

omit [ContentCodec T] [DecidableEq T] in
/-- In the default mode the leader selection always ends. -/
theorem leaderFound_rotation (e : Env T) (h : e.mode = .rotation) : LeaderFound e := by
  intro k c st x _ hx
  rw [h] at hx
  simp only [Authority.getProposer, rotationLeaderIndex] at hx
  split at hx
  · simp [bind, Except.bind] at hx; exact hx.symm
  · rename_i hl
    simp only [bind, Except.bind] at hx
    split at hx
    · cases hx
    · rename_i hn
      rw [List.getElem?_eq_none_iff] at hn
      have h1 := Nat.mod_lt ((st.height * leaderStride ((Authority.update st.authorityList).address.length % U32) + 0) % U64)
        (Nat.pos_of_ne_zero hl)
      have h2 := Nat.mod_le (Authority.update st.authorityList).address.length U32
      omega

omit [ContentCodec T] [DecidableEq T] in
/-- In the random mode it ends as soon as the generator produces a digit below the bound. -/
theorem leaderFound_random (e : Env T) (rng : Nat → List Nat) (h : e.mode = .random rng)
    (hd : ∀ seed n, 0 < n → firstAccepted ((n * (U64MAX / n)) % U64) (rng seed) ≠ none) : LeaderFound e := by
  intro k c st x _ hx
  rw [h] at hx
  simp only [Authority.getProposer, getRandomProposerIndex] at hx
  split at hx
  · simp [bind, Except.bind] at hx; exact hx.symm
  · rename_i hs
    split at hx
    · rename_i hf; exact absurd hf (hd _ _ (Nat.pos_of_ne_zero hs))
    · rename_i d _
      simp only [bind, Except.bind] at hx
      split at hx
      · cases hx
      · rename_i hn
        rw [List.getElem?_eq_none_iff] at hn
        have hlen : (Authority.update st.authorityList).proposeWeights.length =
            (Authority.update st.authorityList).address.length := by
          simp [update_address, update_proposeWeights]
        have hpos : 0 < (Authority.update st.authorityList).address.length := by
          rw [← hlen]
          apply Nat.pos_of_ne_zero
          intro h0
          apply hs
          rw [update_proposeWeights] at h0
          have : sortNodes st.authorityList = [] := by simpa using h0
          rw [Authority.update, this]; rfl
        rcases pickIndex_lt (U64MAX / (Authority.update st.authorityList).proposeWeightSum) d 0 0
          (Authority.update st.authorityList).proposeWeights with h | h
        · rw [h] at hn; omega
        · omega

/-- What the end of one input says about the calls of `commit` in it. -/
def CommitPost (s : State T) (x : Except Err Bool) (w : World T) : Prop :=
  commitCalls w.log = [] ∨ ∃ r, commitCalls w.log = [(s.height, r)] ∧
    ∀ st, r = some st → s.height < st.height → x ≠ .error .panic → w.st.height = st.height

theorem commitCalls_adopt (l : List (Effect T)) (w : WalInfo T) (b : Bool) (ms : List (OverlordMsg T))
    (a : Authority) (t : SMRTrigger) :
    commitCalls (l ++ (.saveWal w b :: (ms.map fun m => .spawnVerify m a) ++ [.trigger t])) = commitCalls l := by
  simp only [commitCalls, List.filterMap_append, List.cons_append, List.filterMap_cons, List.filterMap_map,
    List.filterMap_nil, List.append_nil]
  conv_rhs => rw [← List.append_nil (List.filterMap _ l)]
  congr 1
  simp

theorem wp_commit_post {e : Env T} {s : State T} {l : List (Effect T)} {hash : Hash} (hl : commitCalls l = [])
    (hf : LeaderFound e) :
    wp (handleCommit hash) e ⟨s, l⟩ (fun _ w => CommitPost s (.ok true) w)
      (fun x w => CommitPost s (.error x) w) := by
  unfold handleCommit
  wps
  refine ⟨fun content hb => ⟨fun qc hq => ?_, fun _ => .inl hl⟩, fun _ => .inl hl⟩
  have hs : ∀ w b, commitCalls (l ++ [(.saveWal w b : Effect T)]) = [] := by
    intro w b; simp [commitCalls] at hl ⊢; exact hl
  have hc : ∀ w b k c r, commitCalls (l ++ [(.saveWal w b : Effect T)] ++ [.commitCall k c r]) = [(k, r)] := by
    intro w b k c r; simp [commitCalls] at hl ⊢; exact hl
  refine wp_saveWal (fun _ => .inl hl) (fun b _ _ => .inl (hs _ _)) (fun b _ _ => ?_)
  refine ⟨fun st hst => ?_, fun hst => ?_⟩
  · wps [nextProposer]
    refine ⟨fun p hp => ?_, fun x hx => ?_⟩
    · refine wp_gotoNewHeight ?_ ?_ ?_ ?_ ?_
      · intro h
        refine .inr ⟨_, hc _ _ _ _ _, fun st' h1 h2 => ?_⟩
        rw [hst] at h1; cases h1
        dsimp only at h; omega
      · intro h _
        refine .inr ⟨_, hc _ _ _ _ _, fun st' h1 h2 h3 => ?_⟩
        rw [hst] at h1; cases h1; rfl
      · intro h _ _
        refine .inr ⟨_, hc _ _ _ _ _, fun st' h1 h2 h3 => ?_⟩
        exact absurd rfl h3
      · intro b h _ _ _
        refine .inr ⟨e.commit s.height (mkCommit s hash content qc), ?_, fun st' h1 h2 h3 => ?_⟩
        · simpa [commitCalls, mkCommit] using hl
        · simp only [mkCommit] at h1; rw [hst] at h1; cases h1; rfl
      · intro b h _ _ _
        refine .inr ⟨e.commit s.height (mkCommit s hash content qc), ?_, fun st' h1 h2 h3 => ?_⟩
        · dsimp only; rw [commitCalls_adopt]; exact hc _ _ _ _ _
        · simp only [mkCommit] at h1; rw [hst] at h1; cases h1; rfl
    · have := hf _ _ st x hst hx
      refine .inr ⟨_, hc _ _ _ _ _, fun st' h1 h2 h3 => ?_⟩
      subst this; exact absurd rfl h3
  · refine .inr ⟨_, hc _ _ _ _ _, fun st' h1 => ?_⟩
    rw [hst] at h1; cases h1

/-- One input other than the start: at most one call of `commit`, for the node's height; if it answers with a
higher status, the node moves to it. -/
theorem commit_step {e : Env T} {i : Input T} {s : State T} (hi : i ≠ .start) (hf : LeaderFound e) :
    CommitPost s (runArm i e ⟨s, []⟩).1 (runArm i e ⟨s, []⟩).2 := by
  by_cases hc : ∃ hash, i = .event (.commit hash)
  · obtain ⟨hash, rfl⟩ := hc
    have : wp (runArm (.event (.commit hash))) e ⟨s, []⟩ (fun b w => CommitPost s (.ok b) w)
        (fun x w => CommitPost s (.error x) w) := by
      unfold runArm handleEvent
      wps
      refine ⟨fun _ => .inl rfl, fun _ => ⟨fun _ => .inl rfl, fun _ => ?_⟩⟩
      refine wp_mono (wp_commit_post rfl hf) ?_ ?_
      · intro _ w h; exact h
      · intro x w h
        by_cases hx : x = .panic
        · subst hx; simpa using h
        · simp only [hx, false_implies, not_false_eq_true, true_implies, true_and, ne_eq]
          rcases h with h | ⟨r, h1, h2⟩
          · exact .inl h
          · exact .inr ⟨r, h1, fun st h3 h4 _ => h2 st h3 h4 (by simp [hx])⟩
    unfold wp at this
    split at this <;> rename_i hr <;> rw [hr] <;> exact this
  · left
    refine arm_inv (P := fun w => commitCalls w.log = []) rfl ?_
    intro w eff s' hp hm
    dsimp only
    rw [commitCalls, List.filterMap_append, ← commitCalls, hp, List.nil_append]
    cases hm with
    | commit hash content qc hsv h =>
      rcases h with h | h
      · exact absurd ⟨_, h⟩ hc
      · exact absurd h hi
    | enterRound => split <;> rfl
    | castVote => split <;> rfl
    | adopt => exact commitCalls_adopt [] _ _ _ _ _
    | _ => rfl

/-- The start: at most one call of `commit`; if it answers with a higher status, the node moves to it. -/
theorem commit_start {e : Env T} {s : State T} (hf : LeaderFound e) :
    ∃ s1 : State T, CommitPost s1 (runArm .start e ⟨s, []⟩).1 (runArm .start e ⟨s, []⟩).2 := by
  have : wp (runArm .start) e ⟨s, []⟩ (fun b w => ∃ s1, CommitPost s1 (.ok b) w)
      (fun x w => ∃ s1, CommitPost s1 (.error x) w) := by
    unfold runArm
    dsimp only
    rw [wp_bind, wp_logged]
    refine wp_mono (Q := fun _ w => ∃ s1, CommitPost s1 (.ok true) w) (E := fun x w => ∃ s1, CommitPost s1 (.error x) w) ?_ ?_ ?_
    · unfold startWithWal
      rw [wp_bind, wp_get, wp_ite]
      refine ⟨fun _ => ⟨s, .inl rfl⟩, fun _ => ?_⟩
      rw [wp_bind]
      unfold loadWal
      rw [wp_bind, wp_ask]
      split
      · exact ⟨s, .inl rfl⟩
      · wps [walLost]
        exact ⟨fun _ => ⟨s, .inl rfl⟩, fun _ => ⟨s, .inl rfl⟩⟩
      · rename_i b hb
        split
        · rename_i w hd
          wps
          refine wp_isProposer (fun _ => ⟨s, .inl rfl⟩) fun p hp => ?_
          have tail : ∀ s' : State T, wp (handleBrake w.round (w.lock.map WalLock.lockRound)) e ⟨s', []⟩
              (fun _ w' => ∃ s1, CommitPost s1 (.ok true)
                ⟨w'.st, w'.log ++ [.trigger (walTrig w.intoSmrBase)]⟩)
              (fun x w' => ∃ s1, CommitPost s1 (.error x) w') := by
            intro s'
            have h1 : wp (handleBrake w.round (w.lock.map WalLock.lockRound)) e ⟨s', []⟩
                (fun _ w' => commitCalls w'.log = []) (fun _ w' => commitCalls w'.log = []) := by
              unfold handleBrake
              wps
              refine ⟨fun _ => rfl, fun hr => ⟨fun sig hsig => ?_, fun _ => rfl⟩⟩
              refine wp_saveWalLR (fun _ => rfl) (fun lock b hl _ _ => rfl) (fun lock b hl _ _ => ?_)
              unfold broadcast checkChokeAboveThreshold
              wps
              split
              · rfl
              · wps [aggregateSignatures]
                exact ⟨fun _ => rfl, fun _ => ⟨fun _ _ => ⟨fun _ _ => rfl, fun _ => rfl⟩, fun _ => rfl⟩⟩
            refine wp_mono h1 ?_ ?_
            · intro _ w' h; refine ⟨s, .inl ?_⟩
              simp only [commitCalls, List.filterMap_append] at h ⊢
              rw [h]; rfl
            · intro x w' h; exact ⟨s, .inl h⟩
          cases hk : w.lock with
          | none =>
            wps
            rw [hk] at tail
            exact ⟨fun _ => ⟨s, .inl rfl⟩, fun _ => ⟨fun _ => tail _, fun _ => ⟨s, .inl rfl⟩⟩⟩
          | some lock =>
            wps
            rw [hk] at tail
            refine ⟨fun _ => ?_, fun _ => ⟨fun _ => tail _, fun _ => ⟨s, .inl rfl⟩⟩⟩
            exact wp_mono (wp_commit_post rfl hf) (fun _ _ h => ⟨_, h⟩) (fun _ _ h => ⟨_, h⟩)
        · exact ⟨s, .inl rfl⟩
        · exact ⟨s, .inl rfl⟩
    · intro _ w h; exact h
    · intro x w h
      by_cases hx : x = .panic
      · subst hx; simpa using h
      · simp only [hx, false_implies, not_false_eq_true, true_implies, true_and, ne_eq]
        obtain ⟨s1, h⟩ := h
        refine ⟨s1, ?_⟩
        rcases h with h | ⟨r, h1, h2⟩
        · exact .inl h
        · exact .inr ⟨r, h1, fun st h3 h4 _ => h2 st h3 h4 (by simp [hx])⟩
  unfold wp at this
  split at this <;> rename_i hr <;> rw [hr] <;> exact this

/-- Without a start in between. -/
theorem commits_increase {s : State T} {ins : List (Env T × Input T)} (hs : ∀ p ∈ ins, p.2 ≠ .start)
    (hf : ∀ p ∈ ins, LeaderFound p.1)
    (hok : ∀ c ∈ commitCalls (s.trace ins), ∃ st, c.2 = some st ∧ c.1 < st.height) :
    (∀ c ∈ commitCalls (s.trace ins), s.height ≤ c.1) ∧
    ((commitCalls (s.trace ins)).map Prod.fst).Pairwise (· < ·) := by
  induction ins generalizing s with
  | nil => simp [State.trace, commitCalls]
  | cons a ins ih =>
    obtain ⟨e, i⟩ := a
    have hi : i ≠ .start := hs (e, i) (by simp)
    have hstep := commit_step (s := s) hi (hf (e, i) (by simp))
    have hmono := C38_height_never_decreases e i s hi
    unfold next at hmono
    simp only [State.trace] at hok ⊢
    rcases hrun : runArm i e ⟨s, []⟩ with ⟨x, w⟩
    rw [hrun] at hstep hmono
    dsimp only at hstep hmono
    have one : (∀ c ∈ commitCalls w.log, s.height ≤ c.1) ∧ ((commitCalls w.log).map Prod.fst).Pairwise (· < ·) := by
      rcases hstep with h | ⟨r, h, _⟩ <;> rw [h] <;> simp
    rcases x with x | _ | _
    · simp only [hrun]; exact one
    · simp only [hrun]; exact one
    · simp only [hrun] at hok ⊢
      have happ : commitCalls (w.log ++ w.st.trace ins) = commitCalls w.log ++ commitCalls (w.st.trace ins) := by
        simp [commitCalls]
      rw [happ] at hok ⊢
      obtain ⟨ih1, ih2⟩ := ih (s := w.st) (fun p hp => hs p (by simp [hp])) (fun p hp => hf p (by simp [hp]))
        (fun c hc => hok c (by simp [hc]))
      refine ⟨fun c hc => ?_, ?_⟩
      · rcases List.mem_append.1 hc with hc | hc
        · exact one.1 c hc
        · exact Nat.le_trans hmono (ih1 c hc)
      · rw [List.map_append, List.pairwise_append]
        refine ⟨one.2, ih2, fun a ha b hb => ?_⟩
        obtain ⟨c, hc, rfl⟩ := List.mem_map.1 hb
        have hge := ih1 c hc
        rcases hstep with h | ⟨r, h, hr⟩
        · rw [h] at ha; cases ha
        · rw [h] at ha
          simp only [List.map_cons, List.map_nil, List.mem_singleton] at ha
          subst ha
          obtain ⟨st, hst, hlt⟩ := hok (s.height, r) (by rw [h]; simp)
          have := hr st hst hlt (by simp)
          dsimp only at hlt
          omega

/-- **C07.** Between two starts of a node, over every history of inputs and every behaviour of network, storage
and application: as long as `commit` succeeds with a status for a later height, the heights passed to successive
calls of `commit` strictly increase (so no height is committed twice). -/
theorem C07_commit_heights_increase (s : State T) (ins : List (Env T × Input T))
    (hs : ∀ p ∈ ins.tail, p.2 ≠ .start) (hf : ∀ p ∈ ins, LeaderFound p.1)
    (hok : ∀ c ∈ commitCalls (s.trace ins), ∃ st, c.2 = some st ∧ c.1 < st.height) :
    ((commitCalls (s.trace ins)).map Prod.fst).Pairwise (· < ·) := by
  cases ins with
  | nil => simp [State.trace, commitCalls]
  | cons a ins =>
    obtain ⟨e, i⟩ := a
    by_cases hi : i = .start
    · subst hi
      obtain ⟨s1, hstep⟩ := commit_start (s := s) (hf (e, .start) (by simp))
      simp only [State.trace] at hok ⊢
      rcases hrun : runArm .start e ⟨s, []⟩ with ⟨x, w⟩
      rw [hrun] at hstep
      dsimp only at hstep
      have one : ((commitCalls w.log).map Prod.fst).Pairwise (· < ·) := by
        rcases hstep with h | ⟨r, h, _⟩ <;> rw [h] <;> simp
      rcases x with x | _ | _
      · simp only [hrun]; exact one
      · simp only [hrun]; exact one
      · simp only [hrun] at hok ⊢
        have happ : commitCalls (w.log ++ w.st.trace ins) = commitCalls w.log ++ commitCalls (w.st.trace ins) := by
          simp [commitCalls]
        rw [happ] at hok ⊢
        obtain ⟨ih1, ih2⟩ := commits_increase (s := w.st) (fun p hp => hs p (by simpa using hp))
          (fun p hp => hf p (by simp [hp])) (fun c hc => hok c (by simp [hc]))
        rw [List.map_append, List.pairwise_append]
        refine ⟨one, ih2, fun a ha b hb => ?_⟩
        obtain ⟨c, hc, rfl⟩ := List.mem_map.1 hb
        have hge := ih1 c hc
        rcases hstep with h | ⟨r, h, hr⟩
        · rw [h] at ha; cases ha
        · rw [h] at ha
          simp only [List.map_cons, List.map_nil, List.mem_singleton] at ha
          subst ha
          obtain ⟨st, hst, hlt⟩ := hok (s1.height, r) (by rw [h]; simp)
          have := hr st hst hlt (by simp)
          dsimp only at hlt
          omega
    · refine (commits_increase ?_ hf hok).2
      intro p hp
      rcases List.mem_cons.1 hp with rfl | hp
      · exact hi
      · exact hs p hp

namespace StDemo

/-- Two commit orders for height 7 in a row: only the first one commits; then height 8 is committed. -/
def commitTwice : List (Env C × Input C) :=
  commitIns ++ [(env, .event (.commit [5])), (env, .event (.commit [5])),
   (env, .event (.newRoundInfo 8 0 none none (.precommitQC U64MAX) none none)),
   (env, .resp { height := 8, round := 0, blockHash := [9], isPass := true }),
   (env, .verified (.aggregatedVote (cert [1, 2, 3] 8 0 .precommit [9]))),
   (env, .event (.commit [9]))]

example : (commitCalls (st0.trace commitTwice)).map Prod.fst = [7, 8] ∧
    (∀ c ∈ commitCalls (st0.trace commitTwice), ∃ st, c.2 = some st ∧ c.1 < st.height) ∧
    (∀ p ∈ commitTwice.tail, p.2 ≠ .start) ∧ (∀ p ∈ commitTwice, LeaderFound p.1) := by
  have h1 : commitCalls (st0.trace commitTwice) =
      [(7, some { height := 8, interval := none, timerConfig := none, authorityList := nodes }),
       (8, some { height := 9, interval := none, timerConfig := none, authorityList := nodes })] := by
    decide +kernel
  rw [h1]
  refine ⟨rfl, by simp, ?_, ?_⟩
  · decide +kernel
  · intro p hp
    apply leaderFound_rotation
    revert p
    simp [commitTwice, commitIns, env]

end StDemo

end Overlord
