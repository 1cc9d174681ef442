import Verif.Proofs.Node

/-! The votes a node releases in its whole life are strictly ordered (used for C30, C31). -/

set_option linter.unusedSimpArgs false
set_option linter.unusedVariables false
set_option linter.unusedSectionVars false
set_option linter.unnecessarySeqFocus false

namespace Overlord
open M Spec

variable {T : Type} [ContentCodec T] [DecidableEq T]

/-! ## Observations: votes in order, each saved before it is released -/

/-- Votes strictly ordered; none after the record saved last. -/
structure Good (o : List (Obs T)) : Prop where
  sorted : (obsVotes o).Pairwise fun a b => Pos.lt (votePos a) (votePos b)
  saved : ∀ v ∈ obsVotes o, ∃ w, (obsSaves o).getLast? = some w ∧ Pos.le (votePos v) (recPos w)

theorem good_nil : Good ([] : List (Obs T)) := ⟨.nil, by simp [obsVotes]⟩

theorem good_save {o : List (Obs T)} (h : Good o) (w : WalInfo T)
    (hw : ∀ v ∈ obsVotes o, Pos.le (votePos v) (recPos w)) : Good (o ++ [.save w]) := by
  have e1 : obsVotes (o ++ [.save w]) = obsVotes o := by simp [obsVotes]
  have e2 : obsSaves (o ++ [.save w]) = obsSaves o ++ [w] := by simp [obsSaves]
  refine ⟨by rw [e1]; exact h.sorted, fun v hv => ⟨w, by rw [e2]; simp, hw v (by rwa [e1] at hv)⟩⟩

theorem good_vote {o : List (Obs T)} (h : Good o) (w : WalInfo T) (v : SignedVote)
    (hv : ∀ v' ∈ obsVotes o, Pos.lt (votePos v') (votePos v)) (hw : recPos w = votePos v) :
    Good (o ++ [.save w, .vote v]) := by
  have e1 : obsVotes (o ++ [.save w, .vote v]) = obsVotes o ++ [v] := by simp [obsVotes]
  have e2 : obsSaves (o ++ [.save w, .vote v]) = obsSaves o ++ [w] := by simp [obsSaves]
  refine ⟨?_, fun v' hv' => ⟨w, by rw [e2]; simp, ?_⟩⟩
  · rw [e1, List.pairwise_append]
    exact ⟨h.sorted, by simp, fun a ha b hb => by rw [List.mem_singleton.1 hb]; exact hv a ha⟩
  · rw [e1] at hv'
    rw [hw]
    rcases List.mem_append.1 hv' with hv' | hv'
    · exact Pos.le_of_lt (hv v' hv')
    · rw [List.mem_singleton.1 hv']; exact Pos.le_refl _

theorem good_other {o : List (Obs T)} (h : Good o) (x : Obs T) (hx : ∀ v, x ≠ .vote v) (hs : ∀ w, x ≠ .save w) :
    Good (o ++ [x]) := by
  have e1 : obsVotes (o ++ [x]) = obsVotes o := by cases x <;> simp_all [obsVotes]
  have e2 : obsSaves (o ++ [x]) = obsSaves o := by cases x <;> simp_all [obsSaves]
  exact ⟨by rw [e1]; exact h.sorted, by rw [e1, e2]; exact h.saved⟩

/-- Good after every prefix of `l`. -/
def GoodAll (o l : List (Obs T)) : Prop := ∀ k, Good (o ++ l.take k)

theorem goodAll_nil {o : List (Obs T)} (h : Good o) : GoodAll o [] := fun k => by simpa using h

theorem goodAll_cons {o : List (Obs T)} {x : Obs T} {l : List (Obs T)} (h : Good o) (h' : GoodAll (o ++ [x]) l) :
    GoodAll o (x :: l) := by
  intro k
  cases k with
  | zero => simpa using h
  | succ k => have := h' k; simpa using this

/-! ## Pending orders -/

/-- The pending events `evs` of height `H`, to be handled by a State whose round is `r` and whose votes are at most at
`p`, lead to the position of `m`, and order votes strictly forward, in the round the State will be in. -/
def Chain (H : Nat) : Pos → Nat → List SMREvent → Smr → Prop
  | p, r, [], m => Pos.le p (pos m) ∧ r = m.round
  | p, r, .newRoundInfo h r' _ _ _ _ _ :: evs, m =>
    if h = H then Pos.le p ⟨H, r', 0⟩ ∧ Chain H ⟨H, r', 0⟩ r' evs m else Chain H p r evs m
  | p, r, .prevoteVote h r' _ _ :: evs, m =>
    if h = H then r' = r ∧ Pos.lt p ⟨H, r', 1⟩ ∧ Chain H ⟨H, r', 1⟩ r evs m else Chain H p r evs m
  | p, r, .precommitVote h r' _ _ :: evs, m =>
    if h = H then r' = r ∧ Pos.lt p ⟨H, r', 2⟩ ∧ Chain H ⟨H, r', 2⟩ r evs m else Chain H p r evs m
  | p, r, .commit _ :: evs, m => Chain H p r evs m
  | p, r, .brake _ _ _ :: evs, m => Chain H p r evs m
  | p, r, .stop :: evs, m => Chain H p r evs m

theorem chain_append {H : Nat} {evs' : List SMREvent} {m m' : Smr} :
    ∀ (evs : List SMREvent) (p : Pos) (r : Nat), Chain H p r evs m →
      (∀ p, Pos.le p (pos m) → Chain H p m.round evs' m') → Chain H p r (evs ++ evs') m' := by
  intro evs
  induction evs with
  | nil => intro p r h hk; obtain ⟨h1, h2⟩ := h; subst h2; exact hk p h1
  | cons ev evs ih =>
    intro p r h hk
    cases ev <;> simp only [Chain, List.cons_append] at h ⊢
    · split at h
      · rename_i hh; rw [if_pos hh]; exact ⟨h.1, ih _ _ h.2 hk⟩
      · rename_i hh; rw [if_neg hh]; exact ih _ _ h hk
    · split at h
      · rename_i hh; rw [if_pos hh]; exact ⟨h.1, h.2.1, ih _ _ h.2.2 hk⟩
      · rename_i hh; rw [if_neg hh]; exact ih _ _ h hk
    · split at h
      · rename_i hh; rw [if_pos hh]; exact ⟨h.1, h.2.1, ih _ _ h.2.2 hk⟩
      · rename_i hh; rw [if_neg hh]; exact ih _ _ h hk
    · exact ih _ _ h hk
    · exact ih _ _ h hk
    · exact ih _ _ h hk

/-- One iteration of the voting state machine at the same height extends the pending orders. -/
theorem chain_smr {m : Smr} {t : SMRTrigger} (hw : NotWal t) (hr : t.round < 2 ^ 64 - 1)
    (hh : (m.onTrigger t).next.height = m.height) {p : Pos} (hp : Pos.le p (pos m)) :
    Chain m.height p m.round ((m.onTrigger t).outs.filterMap Out.toState) (m.onTrigger t).next := by
  have hc := smr_case m t
  have hst := step_pos m t hw (by simp only [InRange]; omega) (by simp only [LastRoundQC]; omega)
  generalize m.onTrigger t = o at *
  have hle := Pos.le_trans hp hst
  cases hc with
  | quiet res => exact ⟨hle, rfl⟩
  | newHeight st ht hs hlt => simp only at hh; omega
  | propTimer ht hs h1 h2 hstp =>
    simp only [pos, Pos.le, hstp] at hp
    simp [Chain, Out.toState, pos, Pos.le, Pos.lt] at hp ⊢
    omega
  | propState s1 ht hs h1 h2 hstp hne hacc =>
    obtain ⟨a1, a2, a3, _⟩ := accept_spec hacc
    simp only [pos, Pos.le, hstp] at hp
    simp [Chain, Out.toState, pos, Pos.le, Pos.lt, a1, a2] at hp ⊢
    omega
  | prevoteTimer b ht hs h1 h2 hstp hb =>
    simp only [pos, Pos.le] at hp
    simp [Chain, Out.toState, pos, Pos.le, Pos.lt] at hp ⊢
    omega
  | prevoteSame ht hs h1 h2 hstp =>
    simp only [pos, Pos.le] at hp
    simp [Chain, Out.toState, pos, Pos.le, Pos.lt, updatePolc_height, updatePolc_round] at hp ⊢
    omega
  | prevoteSkip ht hs h1 h2 =>
    have := inc64_of_lt hr
    simp only [pos, Pos.le] at hp
    simp [Chain, Out.toState, pos, Pos.le, Pos.lt, updatePolc_height, updatePolc_round, this] at hp ⊢
    omega
  | precommitTimer ht hs h1 h2 hstp => simpa [Chain, Out.toState] using hle
  | precommitNil ht hs h1 h2 hstp hn =>
    have := inc64_of_lt hr
    simp only [pos, Pos.le] at hp
    simp [Chain, Out.toState, pos, Pos.le, Pos.lt, this] at hp ⊢
    omega
  | commit ht hs h1 hstp hn => simpa [Chain, Out.toState] using hle
  | brake ht hs h1 h2 => simpa [Chain, Out.toState] using hle
  | cont ht hs h1 h2 =>
    have := inc64_of_lt (n := t.round - 1) (by omega)
    simp only [pos, Pos.le] at hp
    simp [Chain, Out.toState, pos, Pos.le, Pos.lt, this] at hp ⊢
    omega
  | wal w ht => exact absurd ht hw
  | stop ht => simpa [Chain, Out.toState] using hle

/-- Heights of the machine and of what it orders. -/
theorem smr_heights {m : Smr} {t : SMRTrigger} (hw : NotWal t) :
    m.height ≤ (m.onTrigger t).next.height ∧
    (∀ ev ∈ (m.onTrigger t).outs.filterMap Out.toState, ∀ h, orderHeight ev = some h →
      h = (m.onTrigger t).next.height) ∧
    ((m.onTrigger t).next.height = m.height ∨
      ∃ st, t.triggerType = .newHeight st ∧ m.height < st.height ∧
        (m.onTrigger t).next = ⟨st.height, 0, .propose, [], none⟩ ∧
        ∃ f ni nc, (m.onTrigger t).outs = [.both (.newRoundInfo st.height 0 none none f ni nc)]) := by
  have hc := smr_case m t
  generalize m.onTrigger t = o at *
  cases hc with
  | newHeight st ht hs hlt =>
    exact ⟨Nat.le_of_lt hlt, by simp [Out.toState, orderHeight], .inr ⟨st, ht, hlt, rfl, _, _, _, rfl⟩⟩
  | propState s1 ht hs h1 h2 hstp hne hacc =>
    have := accept_spec hacc
    simp [Out.toState, orderHeight, this]
  | wal w ht => exact absurd ht hw
  | _ => simp [Out.toState, orderHeight, updatePolc_height]

/-! ## The invariant of a running node -/

/-- The votes released since effect `k`. -/
def votesFrom (k : Nat) (n : NodeSys T) : List SignedVote := votesOf (n.log.drop k)

/-- A running node, started after effect `k` at position `p0`. -/
structure Live (k : Nat) (p0 : Pos) (n : NodeSys T) : Prop where
  len : k ≤ n.log.length
  ph : p0.height ≤ n.st.height
  base : ∀ v ∈ votesFrom k n, Pos.lt p0 (votePos v)
  hV : ∀ v ∈ votesFrom k n, v.vote.height ≤ n.st.height
  gV : n.st.consensusPower = true → ∀ v ∈ votesFrom k n, Pos.le (votePos v) ⟨n.st.height, n.st.round, 2⟩
  smrLe : n.sys.smr.height ≤ n.st.height
  evLe : ∀ ev ∈ n.stQ, ∀ h, orderHeight ev = some h → h ≤ n.sys.smr.height
  trig : ∀ t ∈ n.sys.trigQ, NotWal t ∧ ∀ st, t.triggerType = .newHeight st →
    st.height ≤ n.st.height ∧ p0.height < st.height ∧
    (n.sys.smr.height < st.height → ∀ v ∈ votesFrom k n, v.vote.height < st.height)
  chain : n.st.consensusPower = true → n.sys.smr.height = n.st.height →
    ∃ p, Pos.le p0 p ∧ (∀ v ∈ votesFrom k n, Pos.le (votePos v) p) ∧ Chain n.st.height p n.st.round n.stQ n.sys.smr

theorem votesFrom_append {k : Nat} {n n' : NodeSys T} {l : List (Effect T)} (hk : k ≤ n.log.length)
    (h : n'.log = n.log ++ l) : votesFrom k n' = votesFrom k n ++ votesOf l := by
  unfold votesFrom
  rw [h, List.drop_append_of_le_length hk, votesOf_append]

/-- Steps that do not touch the State nor the voting state machine. -/
theorem live_frame {k : Nat} {p0 : Pos} {n n' : NodeSys T} (h : Live k p0 n) (h1 : n'.log = n.log) (h2 : n'.st = n.st)
    (h3 : n'.sys.smr = n.sys.smr) (h4 : n'.stQ = n.stQ)
    (h5 : ∀ t ∈ n'.sys.trigQ, t ∈ n.sys.trigQ ∨ (NotWal t ∧ ∀ st, t.triggerType ≠ .newHeight st)) : Live k p0 n' := by
  have hv : votesFrom k n' = votesFrom k n := by unfold votesFrom; rw [h1]
  refine ⟨by rw [h1]; exact h.len, by rw [h2]; exact h.ph, by rw [hv]; exact h.base, by rw [hv, h2]; exact h.hV,
    by rw [hv, h2]; exact h.gV,
    by rw [h2, h3]; exact h.smrLe, by rw [h3, h4]; exact h.evLe, ?_, by rw [hv, h2, h3, h4]; exact h.chain⟩
  intro t ht
  rw [hv, h2, h3]
  rcases h5 t ht with h6 | ⟨h6, h7⟩
  · exact h.trig t h6
  · exact ⟨h6, fun st hst => absurd hst (h7 st)⟩

theorem timer_trigger {tm : Timer} {e : SMREvent} {t : SMRTrigger} (h : tm.trigger e = some t) :
    NotWal t ∧ ∀ st, t.triggerType ≠ .newHeight st := by
  unfold NotWal
  cases e <;> simp only [Timer.trigger] at h
  all_goals first
    | (split at h <;> simp only [Option.some.injEq, reduceCtorEq] at h; subst h; simp [timeoutTrigger])
    | cases h

/-- The voting state machine handles a trigger. -/
theorem live_smr {k : Nat} {p0 : Pos} {n n' : NodeSys T} {t : SMRTrigger} {q : List SMRTrigger} (h : Live k p0 n)
    (hq : n.sys.trigQ = t :: q) (hr : t.round < 2 ^ 64 - 1) (h1 : n'.log = n.log) (h2 : n'.st = n.st)
    (h3 : n'.sys.smr = (n.sys.smr.onTrigger t).next)
    (h4 : n'.stQ = n.stQ ++ (n.sys.smr.onTrigger t).outs.filterMap Out.toState)
    (h5 : n'.sys.trigQ = q) : Live k p0 n' := by
  have hv : votesFrom k n' = votesFrom k n := by unfold votesFrom; rw [h1]
  have ht := h.trig t (by rw [hq]; simp)
  obtain ⟨g1, g2, g3⟩ := smr_heights (m := n.sys.smr) ht.1
  have hle : (n.sys.smr.onTrigger t).next.height ≤ n.st.height := by
    rcases g3 with g3 | ⟨st, g3, g4, g5, _⟩
    · rw [g3]; exact h.smrLe
    · rw [g5]; exact (ht.2 st g3).1
  refine ⟨by rw [h1]; exact h.len, by rw [h2]; exact h.ph, by rw [hv]; exact h.base, by rw [hv, h2]; exact h.hV,
    by rw [hv, h2]; exact h.gV,
    by rw [h2, h3]; exact hle, ?_, ?_, ?_⟩
  · intro ev hev hh ho
    rw [h4] at hev
    rw [h3]
    rcases List.mem_append.1 hev with hev | hev
    · exact Nat.le_trans (h.evLe ev hev hh ho) g1
    · exact Nat.le_of_eq (g2 ev hev hh ho)
  · intro t' ht'
    rw [h5] at ht'
    have := h.trig t' (by rw [hq]; exact List.mem_cons_of_mem _ ht')
    rw [hv, h2, h3]
    refine ⟨this.1, fun st hst => ⟨(this.2 st hst).1, (this.2 st hst).2.1, fun hlt => (this.2 st hst).2.2 (by omega)⟩⟩
  · rw [hv, h2, h3, h4]
    intro hp heq
    rcases g3 with g3 | ⟨st, g3, g4, g5, f, ni, nc, g6⟩
    · rw [g3] at heq
      obtain ⟨p, c0, c1, c2⟩ := h.chain hp heq
      refine ⟨p, c0, c1, chain_append _ _ _ c2 fun p' hp' => ?_⟩
      rw [← heq]
      exact chain_smr ht.1 hr g3 hp'
    · -- a new height
      rw [g5] at heq
      simp only at heq
      have hlow := (ht.2 st g3).2.2 g4
      refine ⟨⟨n.st.height, 0, 0⟩, ?_, ?_, ?_⟩
      · simp only [Pos.le]; have := (ht.2 st g3).2.1; omega
      · intro v hv'
        have := hlow v hv'
        simp only [votePos, Pos.le]; omega
      · have old : ∀ (evs : List SMREvent) p r, (∀ ev ∈ evs, ∀ h, orderHeight ev = some h → h < n.st.height) →
            ∀ tail, Chain n.st.height p r tail ⟨st.height, 0, .propose, [], none⟩ →
            Chain n.st.height p r (evs ++ tail) ⟨st.height, 0, .propose, [], none⟩ := by
          intro evs
          induction evs with
          | nil => intro p r _ tail ht; exact ht
          | cons ev evs ih =>
            intro p r hev tail htl
            have ih' := ih p r (fun ev' he' => hev ev' (List.mem_cons_of_mem _ he')) tail htl
            have h0 := hev ev (by simp)
            cases ev <;> simp only [Chain, List.cons_append, orderHeight, Option.some.injEq] at h0 ⊢
            · rw [if_neg (by have := h0 _ rfl; omega)]; exact ih'
            · rw [if_neg (by have := h0 _ rfl; omega)]; exact ih'
            · rw [if_neg (by have := h0 _ rfl; omega)]; exact ih'
            · exact ih'
            · exact ih'
            · exact ih'
        rw [g5]
        refine old _ _ _ (fun ev hev hh ho => ?_) _ ?_
        · have := h.evLe ev hev hh ho; omega
        · rw [g6]
          simp [Out.toState, Chain, pos, Pos.le, heq]

/-- The State handles an input. -/
theorem live_move {k : Nat} {p0 : Pos} {n n' : NodeSys T} {e : Env T} {s : State T} {status : Status} {w : World T}
    {ev0 : List SMREvent} {l0 : List (Effect T)}
    (h : Live k p0 n) (hs1 : s.height = n.st.height) (hs2 : s.consensusPower = n.st.consensusPower)
    (hs3 : s.round = n.st.round)
    (hl0 : votesOf l0 = []) (hl1 : ∀ t, .trigger t ∉ l0)
    (o : Moves e s status w) (h1 : n'.log = n.log ++ (l0 ++ w.log)) (h2 : n'.st = w.st)
    (h3 : n'.sys.smr = n.sys.smr) (h4 : n.stQ = ev0 ++ n'.stQ)
    (h4' : ∀ ev ∈ ev0, ∃ hash, ev = .commit hash)
    (h5 : n'.sys.trigQ = n.sys.trigQ ++ trigsOf (l0 ++ w.log)) : Live k p0 n' := by
  have evLe : ∀ ev ∈ n'.stQ, ∀ h, orderHeight ev = some h → h ≤ n'.sys.smr.height := by
    intro ev hev
    rw [h3]; exact h.evLe ev (by rw [h4]; exact List.mem_append_right _ hev)
  have hvw : votesOf w.log = [] := by
    rw [votesOf_obs]
    cases o with
    | adopt => rw [obs_adopt _ _ _ _ status.toSMR rfl]; rfl
    | _ => rfl
  have hv : votesFrom k n' = votesFrom k n := by
    rw [votesFrom_append h.len h1, votesOf_append, hl0, hvw]; simp
  have hlen : k ≤ n'.log.length := by rw [h1, List.length_append]; have := h.len; omega
  have hev0 : ∀ p r m, Chain n.st.height p r n.stQ m → Chain n.st.height p r n'.stQ m := by
    rw [h4]
    clear h4
    induction ev0 with
    | nil => intro p r m h; exact h
    | cons ev evs ih =>
      intro p r m hc
      obtain ⟨hash, rfl⟩ := h4' ev (by simp)
      exact ih (fun ev' h' => h4' ev' (List.mem_cons_of_mem _ h')) p r m hc
  have hph := h.ph
  have hle := h.smrLe
  -- a move without adoption
  have away : s.height < status.height → n'.st = s.moved status → (∀ t, .trigger t ∉ w.log) → Live k p0 n' := by
    intro hlt hst hno
    have e1 : n'.st.height = status.height := by rw [hst]; rfl
    have e2 : n'.st.round = 0 := by rw [hst]; rfl
    refine ⟨hlen, by omega, by rw [hv]; exact h.base, ?_, ?_, by rw [h3]; omega, evLe, ?_, ?_⟩
    · rw [hv]; intro v hv'; have := h.hV v hv'; omega
    · rw [hv]; intro _ v hv'; have := h.hV v hv'; simp only [votePos, Pos.le]; omega
    · intro t ht
      rw [h5] at ht
      rcases List.mem_append.1 ht with ht | ht
      · rw [hv, h3]
        refine ⟨(h.trig t ht).1, fun st' hs' => ?_⟩
        obtain ⟨a, b, c⟩ := (h.trig t ht).2 st' hs'
        exact ⟨by omega, b, c⟩
      · rw [mem_trigsOf] at ht
        rcases List.mem_append.1 ht with ht | ht
        · exact absurd ht (hl1 t)
        · exact absurd ht (hno t)
    · rw [h3]; intro _ heq; omega
  cases o with
  | stay hh =>
    have e : n'.st = s := h2
    refine ⟨hlen, by rw [e]; omega, by rw [hv]; exact h.base, by rw [hv, e, hs1]; exact h.hV,
      by rw [hv, e, hs1, hs2, hs3]; exact h.gV, by rw [h3, e]; omega, evLe, ?_, ?_⟩
    · intro t ht
      rw [h5] at ht
      rcases List.mem_append.1 ht with ht | ht
      · rw [hv, h3, e, hs1]; exact h.trig t ht
      · rw [mem_trigsOf] at ht; simp at ht; exact absurd ht (hl1 t)
    · rw [hv, h3, e, hs1, hs2, hs3]
      intro hp heq
      obtain ⟨p, c0, c1, c2⟩ := h.chain hp heq
      exact ⟨p, c0, c1, hev0 _ _ _ c2⟩
  | away hh hp => exact away hh h2 (by simp)
  | lost hh hp hs => exact away hh h2 (by simp)
  | adopt hh hp hs =>
    have e1 : n'.st.height = status.height := by rw [h2]; rfl
    have e2 : n'.st.round = 0 := by rw [h2]; rfl
    refine ⟨hlen, by omega, by rw [hv]; exact h.base, ?_, ?_, by rw [h3]; omega, evLe, ?_, ?_⟩
    · rw [hv]; intro v hv'; have := h.hV v hv'; omega
    · rw [hv]; intro _ v hv'; have := h.hV v hv'; simp only [votePos, Pos.le]; omega
    · intro t ht
      rw [h5] at ht
      rcases List.mem_append.1 ht with ht | ht
      · rw [hv, h3]
        refine ⟨(h.trig t ht).1, fun st' hs' => ?_⟩
        obtain ⟨a, b, c⟩ := (h.trig t ht).2 st' hs'
        exact ⟨by omega, b, c⟩
      · rw [mem_trigsOf] at ht
        rcases List.mem_append.1 ht with ht | ht
        · exact absurd ht (hl1 t)
        · have : t = stTrigger (.newHeight status.toSMR) [] none INIT_ROUND status.height := by simpa using ht
          subst this
          refine ⟨by simp [NotWal, stTrigger], fun st' hs' => ?_⟩
          have : st' = status.toSMR := by simpa [stTrigger] using hs'.symm
          subst this
          rw [hv]
          refine ⟨by rw [e1]; exact Nat.le_refl _, ?_, fun _ v hv' => ?_⟩
          · show p0.height < status.height; omega
          · show v.vote.height < status.height
            have := h.hV v hv'; omega
    · rw [h3]; intro _ heq; omega

theorem trig_old {k : Nat} {p0 : Pos} {n n' : NodeSys T} {l : List (Effect T)} (h : Live k p0 n)
    (hst : n'.st.height = n.st.height) (h3 : n'.sys.smr = n.sys.smr) (h5 : n'.sys.trigQ = n.sys.trigQ ++ trigsOf l)
    (hno : ∀ st, .high st ∉ obs l) (hnw : ∀ t, .trigger t ∈ l → NotWal t)
    (hvv : n.sys.smr.height = n.st.height ∨ votesFrom k n' = votesFrom k n) :
    ∀ t ∈ n'.sys.trigQ, NotWal t ∧ ∀ st, t.triggerType = .newHeight st →
      st.height ≤ n'.st.height ∧ p0.height < st.height ∧
      (n'.sys.smr.height < st.height → ∀ v ∈ votesFrom k n', v.vote.height < st.height) := by
  intro t ht
  rw [h5] at ht
  rcases List.mem_append.1 ht with ht | ht
  · obtain ⟨a, b⟩ := h.trig t ht
    refine ⟨a, fun st' hs' => ?_⟩
    obtain ⟨b1, b2, b3⟩ := b st' hs'
    rw [hst, h3]
    refine ⟨b1, b2, fun hlt => ?_⟩
    rcases hvv with hvv | hvv
    · omega
    · rw [hvv]; exact b3 hlt
  · rw [mem_trigsOf] at ht
    exact ⟨hnw t ht, fun st' hs' => absurd (high_of_trigger ht hs') (hno st')⟩

theorem live_quiet {k : Nat} {p0 : Pos} {n n' : NodeSys T} {l : List (Effect T)} (h : Live k p0 n)
    (h1 : n'.log = n.log ++ l) (ho : obs l = [] ∨ ∃ w, obs l = [.save w]) (hs : SamePos n.st n'.st) (hr : n'.st.round = n.st.round)
    (h3 : n'.sys.smr = n.sys.smr) (h5 : n'.sys.trigQ = n.sys.trigQ ++ trigsOf l)
    (hnw : ∀ t, .trigger t ∈ l → NotWal t)
    (h4 : ∀ ev ∈ n'.stQ, ev ∈ n.stQ)
    (h4' : n.st.consensusPower = true → ∀ p r m, Chain n.st.height p r n.stQ m → Chain n.st.height p r n'.stQ m) :
    Live k p0 n' := by
  have hv : votesFrom k n' = votesFrom k n := by
    rw [votesFrom_append h.len h1, votesOf_obs]
    rcases ho with ho | ⟨w, ho⟩ <;> rw [ho] <;> simp [obsVotes]
  refine ⟨by rw [h1, List.length_append]; have := h.len; omega, by rw [hs.height]; exact h.ph, by rw [hv]; exact h.base,
    by rw [hv, hs.height]; exact h.hV, by rw [hv, hs.power, hs.height, hr]; exact h.gV, by rw [h3, hs.height]; exact h.smrLe,
    fun ev hev => by rw [h3]; exact h.evLe ev (h4 ev hev), ?_, ?_⟩
  · refine trig_old h hs.height h3 h5 ?_ hnw (.inr hv)
    intro st hm
    rcases ho with ho | ⟨w, ho⟩ <;> rw [ho] at hm <;> simp at hm
  · rw [hv, h3, hs.height, hs.power, hr]
    intro hp heq
    obtain ⟨p, c0, c1, c2⟩ := h.chain hp heq
    exact ⟨p, c0, c1, h4' hp _ _ _ c2⟩

theorem votesOf_single {l : List (Effect T)} {w : WalInfo T} {sv : SignedVote} (h : obs l = [.save w, .vote sv]) :
    votesOf l = [sv] := by rw [votesOf_obs, h]; rfl

/-- An order to vote is handled. -/
theorem live_vote {k : Nat} {p0 : Pos} {n n' : NodeSys T} {w : World T} {ty : VoteType} {h0 r0 : Nat} {hash : Hash}
    {lr : Option Nat} {q : List SMREvent} (h : Live k p0 n) (o : VoteOut n.st ty hash lr w)
    (hq : n.stQ = (match ty with
      | .prevote => .prevoteVote h0 r0 hash lr
      | .precommit => .precommitVote h0 r0 hash lr) :: q) (hh : h0 = n.st.height) (hp : n.st.consensusPower = true)
    (h1 : n'.log = n.log ++ w.log) (h2 : n'.st = w.st) (h3 : n'.sys.smr = n.sys.smr)
    (h5 : n'.sys.trigQ = n.sys.trigQ ++ trigsOf w.log) (hnw : ∀ t, .trigger t ∈ w.log → NotWal t) (h4 : n'.stQ = q) :
    Live k p0 n' ∧ (∀ v ∈ votesFrom k n, Pos.lt (votePos v) ⟨n.st.height, n.st.round, ty.toStep.toNat⟩) := by
  subst hh
  have hin : n.sys.smr.height = n.st.height := by
    have := h.evLe _ (by rw [hq]; exact List.mem_cons_self ..) n.st.height (by cases ty <;> rfl)
    have := h.smrLe
    omega
  obtain ⟨p, c0, c1, c2⟩ := h.chain hp hin
  have c3 : r0 = n.st.round ∧ Pos.lt p ⟨n.st.height, r0, ty.toStep.toNat⟩ ∧
      Chain n.st.height ⟨n.st.height, r0, ty.toStep.toNat⟩ n.st.round q n.sys.smr := by
    rw [hq] at c2
    cases ty <;> simp only [Chain, if_true] at c2 <;> exact c2
  obtain ⟨rfl, c4, c5⟩ := c3
  have hold : ∀ v ∈ votesFrom k n, Pos.lt (votePos v) ⟨n.st.height, n.st.round, ty.toStep.toNat⟩ :=
    fun v hv => Pos.lt_of_le_of_lt (c1 v hv) c4
  have hst2 : ty.toStep.toNat ≤ 2 := by cases ty <;> simp [VoteType.toStep]
  have hs := o.same
  rw [← h2] at hs
  have hr : n'.st.round = n.st.round := by rw [h2]; exact o.round
  have evs : ∀ ev ∈ n'.stQ, ev ∈ n.stQ := by rw [h4, hq]; intro ev hev; exact List.mem_cons_of_mem _ hev
  refine ⟨?_, hold⟩
  have hnew : ∀ v ∈ votesFrom k n', v ∈ votesFrom k n ∨ votePos v = ⟨n.st.height, n.st.round, ty.toStep.toNat⟩ := by
    intro v hv
    rw [votesFrom_append h.len h1] at hv
    rcases List.mem_append.1 hv with hv | hv
    · exact .inl hv
    · rcases o.out with ho | ⟨lock, sv, _, hsv, _, ho⟩
      · rw [votesOf_obs, ho] at hv; simp [obsVotes] at hv
      · rw [votesOf_single ho] at hv
        right
        rw [List.mem_singleton.1 hv]
        simp [votePos, hsv]
  refine ⟨by rw [h1, List.length_append]; have := h.len; omega, by rw [hs.height]; exact h.ph, ?_, ?_, ?_,
    by rw [h3, hs.height]; exact h.smrLe, fun ev hev => by rw [h3]; exact h.evLe ev (evs ev hev), ?_, ?_⟩
  · intro v hv
    rcases hnew v hv with hv | hv
    · exact h.base v hv
    · rw [hv]; exact Pos.lt_of_le_of_lt c0 c4
  · intro v hv
    rw [hs.height]
    rcases hnew v hv with hv | hv
    · exact h.hV v hv
    · simp only [votePos, Pos.mk.injEq] at hv; omega
  · intro _ v hv
    rw [hs.height, hr]
    rcases hnew v hv with hv | hv
    · exact h.gV hp v hv
    · rw [hv]; exact .inr ⟨rfl, .inr ⟨rfl, hst2⟩⟩
  · refine trig_old h hs.height h3 h5 ?_ hnw (.inl hin)
    intro st hm
    rcases o.out with ho | ⟨lock, sv, _, hsv, _, ho⟩ <;> rw [ho] at hm <;> simp at hm
  · rw [h3, hs.height, hs.power, hr, h4]
    intro _ _
    refine ⟨_, Pos.le_trans c0 (Pos.le_of_lt c4), ?_, c5⟩
    intro v hv
    rcases hnew v hv with hv | hv
    · exact Pos.le_of_lt (hold v hv)
    · rw [hv]; exact Pos.le_refl _

/-- An order to enter a round is handled. -/
theorem live_round {k : Nat} {p0 : Pos} {n n' : NodeSys T} {w : World T} {h0 r0 : Nat} {lr : Option Nat} {lp : Option Hash}
    {f : FromWhere} {ni : Option Nat} {nc : Option DurationConfig}
    {q : List SMREvent} (h : Live k p0 n) (o : RoundOut n.st r0 lr w)
    (hq : n.stQ = .newRoundInfo h0 r0 lr lp f ni nc :: q) (hh : h0 = n.st.height) (hp : n.st.consensusPower = true)
    (h1 : n'.log = n.log ++ w.log) (h2 : n'.st = w.st) (h3 : n'.sys.smr = n.sys.smr)
    (h5 : n'.sys.trigQ = n.sys.trigQ ++ trigsOf w.log) (hnw : ∀ t, .trigger t ∈ w.log → NotWal t) (h4 : n'.stQ = q) :
    Live k p0 n' ∧ (∀ v ∈ votesFrom k n, Pos.le (votePos v) ⟨n.st.height, r0, 0⟩) := by
  subst hh
  have hin : n.sys.smr.height = n.st.height := by
    have := h.evLe _ (by rw [hq]; exact List.mem_cons_self ..) n.st.height rfl
    have := h.smrLe
    omega
  obtain ⟨p, c0, c1, c2⟩ := h.chain hp hin
  have c3 : Pos.le p ⟨n.st.height, r0, 0⟩ ∧ Chain n.st.height ⟨n.st.height, r0, 0⟩ r0 q n.sys.smr := by
    rw [hq] at c2
    simp only [Chain, if_true] at c2; exact c2
  obtain ⟨c4, c5⟩ := c3
  have hold : ∀ v ∈ votesFrom k n, Pos.le (votePos v) ⟨n.st.height, r0, 0⟩ :=
    fun v hv => Pos.le_trans (c1 v hv) c4
  have hs := o.same
  rw [← h2] at hs
  have hr : n'.st.round = r0 := by rw [h2]; exact o.round
  have evs : ∀ ev ∈ n'.stQ, ev ∈ n.stQ := by rw [h4, hq]; intro ev hev; exact List.mem_cons_of_mem _ hev
  have hv : votesFrom k n' = votesFrom k n := by
    rw [votesFrom_append h.len h1, votesOf_obs]
    rcases o.out with ho | ⟨lock, u, _, ho⟩ <;> rw [ho] <;> simp [obsVotes]
  refine ⟨⟨by rw [h1, List.length_append]; have := h.len; omega, by rw [hs.height]; exact h.ph, by rw [hv]; exact h.base,
    by rw [hv, hs.height]; exact h.hV, ?_,
    by rw [h3, hs.height]; exact h.smrLe, fun ev hev => by rw [h3]; exact h.evLe ev (evs ev hev), ?_, ?_⟩, hold⟩
  · intro _ v hv'
    rw [hv] at hv'
    rw [hs.height, hr]
    have := hold v hv'
    simp only [Pos.le, votePos] at this ⊢
    cases v.vote.voteType <;> simp [VoteType.toStep] at this ⊢ <;> omega
  · refine trig_old h hs.height h3 h5 ?_ hnw (.inr hv)
    intro st hm
    rcases o.out with ho | ⟨lock, u, _, ho⟩ <;> rw [ho] at hm <;> simp at hm
  · rw [hv, h3, hs.height, hs.power, hr, h4]
    intro _ _
    exact ⟨_, Pos.le_trans c0 c4, hold, c5⟩

/-! ## One step of the State's loop -/

theorem stopped_ends {e : Env T} {s : State T} {ev : SMREvent} (h : s.stopped = true) :
    (runArm (.event ev) e ⟨s, []⟩).1 = .ok false := by
  have : wp (runArm (.event ev)) e ⟨s, []⟩ (fun b _ => b = false) (fun _ _ => False) := by
    unfold runArm
    wps
    exact ⟨fun _ => trivial, fun h' => absurd h h'⟩
  rcases wp_exists this with ⟨a, h1, h2⟩ | ⟨x, _, h2⟩
  · rw [h1, h2]
  · exact h2.elim

/-- What a node takes up, and what it leaves in its channels. -/
theorem take_spec {n n1 : NodeSys T} {a : Arm T} {i : Input T} (h : n.take a = some (i, n1)) :
    i ≠ .start ∧ n1.log = n.log ∧ n1.st = n.st ∧ n1.sys = n.sys ∧
    ((n1.stQ = n.stQ ∧ (∀ ev, i ≠ .event ev)) ∨ (a = .event ∧ ∃ ev, i = .event ev ∧ n.stQ = ev :: n1.stQ)) := by
  cases a with
  | raw m => simp only [NodeSys.take, Option.some.injEq, Prod.mk.injEq] at h; obtain ⟨rfl, rfl⟩ := h; simp
  | event =>
    simp only [NodeSys.take] at h
    split at h
    · cases h
    · rename_i ev q hq
      simp only [Option.some.injEq, Prod.mk.injEq] at h; obtain ⟨rfl, rfl⟩ := h; simp [hq]
  | resp =>
    simp only [NodeSys.take] at h
    split at h
    · cases h
    · simp only [Option.some.injEq, Prod.mk.injEq] at h; obtain ⟨rfl, rfl⟩ := h; simp
  | verified =>
    simp only [NodeSys.take] at h
    split at h
    · cases h
    · simp only [Option.some.injEq, Prod.mk.injEq] at h; obtain ⟨rfl, rfl⟩ := h; simp

theorem moves_good {o : List (Obs T)} {e : Env T} {s : State T} {status : Status} {w : World T} (h : Good o)
    (hV : ∀ v ∈ obsVotes o, v.vote.height ≤ s.height) (m : Moves e s status w) : GoodAll o (obs w.log) := by
  cases m with
  | adopt hh hp hs =>
    dsimp only
    rw [obs_adopt _ _ _ _ status.toSMR rfl]
    have g : Good (o ++ [.save (walRec (s.moved status) .propose none)]) := good_save h _ fun v hv => by
      have := hV v hv
      simp only [votePos, recPos, walRec, State.moved, Pos.le]; omega
    exact goodAll_cons h (goodAll_cons g (goodAll_nil (good_other g _ (by simp) (by simp))))
  | _ => exact goodAll_nil h

theorem goodAll_append {o : List (Obs T)} {l l' : List (Obs T)} (h : GoodAll o l) (h' : GoodAll (o ++ l) l') :
    GoodAll o (l ++ l') := by
  intro k
  by_cases hk : k ≤ l.length
  · rw [List.take_append_of_le_length hk]; exact h k
  · have := h' (k - l.length)
    rw [List.append_assoc] at this
    rw [List.take_append, List.take_of_length_le (by omega)]
    exact this

theorem GoodAll.all {o l : List (Obs T)} (h : GoodAll o l) : Good (o ++ l) := by
  have := h l.length; rwa [List.take_length] at this

theorem commit_good {o : List (Obs T)} {e : Env T} {s : State T} {hash : Hash} {w : World T} (h : Good o)
    (hV : ∀ v ∈ obsVotes o, Pos.le (votePos v) ⟨s.height, s.round, 2⟩) (c : CommitOut e s hash w) :
    GoodAll o (obs w.log) := by
  have g1 : ∀ qc content, Good (o ++ [.save (commitRec s qc content)]) := fun qc content => good_save h _ fun v hv => by
    have := hV v hv
    simp only [votePos, recPos, commitRec, walRec, Pos.le, Step.toNat_commit] at this ⊢; omega
  have g2 : ∀ qc content k c r, GoodAll o [.save (commitRec s qc content), .call k c r] := fun qc content k c r =>
    goodAll_cons h (goodAll_cons (g1 qc content) (goodAll_nil (good_other (g1 qc content) _ (by simp) (by simp))))
  cases c with
  | none => exact goodAll_nil h
  | lost => exact goodAll_nil h
  | failed content qc => exact g2 qc content _ _ _
  | stuck content qc => exact g2 qc content _ _ _
  | done content qc status w hb hq hs hc hm =>
    dsimp only
    rw [obs_append]
    have g3 := g2 qc content s.height (mkCommit s hash content qc) (some status)
    refine goodAll_append g3 (moves_good g3.all ?_ hm)
    intro v hv
    have hv : v ∈ obsVotes o := by
      have : obsVotes (o ++ [Obs.save (commitRec s qc content), .call s.height (mkCommit s hash content qc) (some status)]) = obsVotes o := by
        simp [obsVotes]
      rw [← this]; exact hv
    have := hV v hv
    simp only [votePos, Pos.le] at this ⊢
    omega

theorem live_arm {k : Nat} {p0 : Pos} {n n1 : NodeSys T} {a : Arm T} {e : Env T} {i : Input T} {cut : Option Nat}
    (h : Live k p0 n) (ok : InSync n (.arm a e cut)) (ht : n.take a = some (i, n1)) :
    ((n1.took cut (runArm i e ⟨n.st, []⟩)).down = false → Live k p0 (n1.took cut (runArm i e ⟨n.st, []⟩))) ∧
    (k = 0 → Good (obs n.log) → GoodAll (obs n.log) (obs (runArm i e ⟨n.st, []⟩).2.log)) := by
  obtain ⟨hi, e1, e2, e3, e4⟩ := take_spec ht
  -- the node after the whole input
  have key : (runArm i e ⟨n.st, []⟩).1 = .ok true → cut = none →
      ∀ n', n' = n1.took cut (runArm i e ⟨n.st, []⟩) →
      n'.log = n.log ++ (runArm i e ⟨n.st, []⟩).2.log ∧ n'.st = (runArm i e ⟨n.st, []⟩).2.st ∧ n'.sys.smr = n.sys.smr ∧
      n'.stQ = n1.stQ ∧ n'.sys.trigQ = n.sys.trigQ ++ trigsOf (runArm i e ⟨n.st, []⟩).2.log := by
    rintro _ rfl n' rfl
    simp [NodeSys.took, NodeSys.absorb, cutTo, e1, e2, e3]
  have hnw : ∀ t, .trigger t ∈ (runArm i e ⟨n.st, []⟩).2.log → NotWal t := fun t => arm_notWal hi
  have hv0 : k = 0 → obsVotes (obs n.log) = votesFrom k n := by rintro rfl; rw [← votesOf_obs]; rfl
  -- quiet outcomes
  have quiet : obs (runArm i e ⟨n.st, []⟩).2.log = [] → SamePos n.st (runArm i e ⟨n.st, []⟩).2.st →
      (runArm i e ⟨n.st, []⟩).2.st.round = n.st.round →
      (n.st.consensusPower = true → ∀ p r m, Chain n.st.height p r n.stQ m → Chain n.st.height p r n1.stQ m) →
      ((n1.took cut (runArm i e ⟨n.st, []⟩)).down = false → Live k p0 (n1.took cut (runArm i e ⟨n.st, []⟩))) ∧
      (k = 0 → Good (obs n.log) → GoodAll (obs n.log) (obs (runArm i e ⟨n.st, []⟩).2.log)) := by
    intro q1 q2 q3 q4
    refine ⟨fun hup => ?_, fun _ hg => by rw [q1]; exact goodAll_nil hg⟩
    obtain ⟨hc, hr⟩ := took_up hup
    obtain ⟨k1, k2, k3, k4, k5⟩ := key hr hc _ rfl
    refine live_quiet h k1 (.inl q1) (by rw [k2]; exact q2) (by rw [k2]; exact q3) k3 k5 hnw ?_ (by rw [k4]; exact q4)
    rw [k4]
    intro ev hev
    rcases e4 with ⟨e4, _⟩ | ⟨_, ev', _, e4⟩
    · rw [e4] at hev; exact hev
    · rw [e4]; exact List.mem_cons_of_mem _ hev
  rcases e4 with ⟨e4, e5⟩ | ⟨rfl, ev, rfl, e4⟩
  · cases arm_out e n.st i hi with
    | quiet q1 q2 q3 => exact quiet q1 q2 q3 (fun _ p r m hc => by rw [e4]; exact hc)
    | event ev hev => exact absurd hev (e5 ev)
    | status st hst o =>
      refine ⟨fun hup => ?_, fun hk hg => moves_good hg (by rw [hv0 hk]; exact h.hV) o⟩
      obtain ⟨hc, hr⟩ := took_up hup
      obtain ⟨k1, k2, k3, k4, k5⟩ := key hr hc _ rfl
      exact live_move (ev0 := []) (l0 := []) h rfl rfl rfl rfl (by simp) o (by simpa using k1) k2 k3 (by rw [k4, e4]; rfl)
        (by simp) (by simpa using k5)
  · by_cases hidle : n.st.consensusPower = false ∨ n.st.stopped = true
    · have hq := event_idle (e := e) (ev := ev) hidle
      refine ⟨fun hup => ?_, fun _ hg => by rw [hq]; exact goodAll_nil hg⟩
      rcases hidle with hidle | hidle
      · exact (quiet (by rw [hq]; rfl) (by rw [hq]; exact .refl _) (by rw [hq]) (by simp [hidle])).1 hup
      · obtain ⟨_, hr⟩ := took_up hup
        rw [stopped_ends hidle] at hr
        cases hr
    · simp only [not_or, Bool.not_eq_false, Bool.not_eq_true] at hidle
      have hout := event_out e n.st ev hidle.1 hidle.2
      have hp := hidle.1
      generalize hrun : runArm (.event ev) e ⟨n.st, []⟩ = res at *
      have hsync := fun h' => ok ev n1.stQ h' e4
      cases hout with
      | newRound h0 r lr lp f ni nc o =>
        have l := fun n' k1 k2 k3 k5 k4 => live_round (n' := n') h o e4 (hsync _ rfl) hp k1 k2 k3 k5 hnw k4
        refine ⟨fun hup => ?_, fun hk hg => ?_⟩
        · obtain ⟨hc, hr⟩ := took_up hup
          obtain ⟨k1, k2, k3, k4, k5⟩ := key hr hc _ rfl
          exact (l _ k1 k2 k3 k5 k4).1
        · rcases o.out with ho | ⟨lock, u, _, ho⟩
          · rw [ho]; exact goodAll_nil hg
          · rw [ho]
            have hb := (l { n with log := n.log ++ res.2.log, st := res.2.st, stQ := n1.stQ,
                                   sys := { n.sys with trigQ := n.sys.trigQ ++ trigsOf res.2.log } } rfl rfl rfl rfl rfl).2
            exact goodAll_cons hg (goodAll_nil (good_save hg _ (by rw [hv0 hk]; exact hb)))
      | prevote h0 r hash lr o =>
        have l := fun n' k1 k2 k3 k5 k4 => live_vote (n' := n') (ty := .prevote) h o e4 (hsync _ rfl) hp k1 k2 k3 k5 hnw k4
        refine ⟨fun hup => ?_, fun hk hg => ?_⟩
        · obtain ⟨hc, hr⟩ := took_up hup
          obtain ⟨k1, k2, k3, k4, k5⟩ := key hr hc _ rfl
          exact (l _ k1 k2 k3 k5 k4).1
        · rcases o.out with ho | ⟨lock, sv, _, hsv, _, ho⟩
          · rw [ho]; exact goodAll_nil hg
          · rw [ho]
            have hb := (l { n with log := n.log ++ res.2.log, st := res.2.st, stQ := n1.stQ,
                                   sys := { n.sys with trigQ := n.sys.trigQ ++ trigsOf res.2.log } } rfl rfl rfl rfl rfl).2
            have hpv : votePos sv = ⟨n.st.height, n.st.round, VoteType.prevote.toStep.toNat⟩ := by simp [votePos, hsv]
            refine goodAll_cons hg (goodAll_cons (good_save hg _ ?_) (goodAll_nil ?_))
            · rw [hv0 hk]; exact fun v hv => Pos.le_of_lt (hb v hv)
            · have := good_vote hg (walRec n.st VoteType.prevote.toStep lock) sv (by rw [hv0 hk, hpv]; exact hb) hpv.symm
              simpa using this
      | precommit h0 r hash lr o =>
        have l := fun n' k1 k2 k3 k5 k4 => live_vote (n' := n') (ty := .precommit) h o e4 (hsync _ rfl) hp k1 k2 k3 k5 hnw k4
        refine ⟨fun hup => ?_, fun hk hg => ?_⟩
        · obtain ⟨hc, hr⟩ := took_up hup
          obtain ⟨k1, k2, k3, k4, k5⟩ := key hr hc _ rfl
          exact (l _ k1 k2 k3 k5 k4).1
        · rcases o.out with ho | ⟨lock, sv, _, hsv, _, ho⟩
          · rw [ho]; exact goodAll_nil hg
          · rw [ho]
            have hb := (l { n with log := n.log ++ res.2.log, st := res.2.st, stQ := n1.stQ,
                                   sys := { n.sys with trigQ := n.sys.trigQ ++ trigsOf res.2.log } } rfl rfl rfl rfl rfl).2
            have hpv : votePos sv = ⟨n.st.height, n.st.round, VoteType.precommit.toStep.toNat⟩ := by simp [votePos, hsv]
            refine goodAll_cons hg (goodAll_cons (good_save hg _ ?_) (goodAll_nil ?_))
            · rw [hv0 hk]; exact fun v hv => Pos.le_of_lt (hb v hv)
            · have := good_vote hg (walRec n.st VoteType.precommit.toStep lock) sv (by rw [hv0 hk, hpv]; exact hb) hpv.symm
              simpa using this
      | commit hash o =>
        refine ⟨fun hup => ?_, fun hk hg => commit_good hg (by rw [hv0 hk]; exact h.gV hp) o⟩
        obtain ⟨hc, hr⟩ := took_up hup
        obtain ⟨k1, k2, k3, k4, k5⟩ := key hr hc _ rfl
        have same : ∀ w', res.2 = w' → SamePos n.st w'.st → w'.st.round = n.st.round → votesOf w'.log = [] →
            (∀ t, .trigger t ∉ w'.log) →
            Live k p0 (n1.took cut res) := by
          intro w' hw hs hr hvo hno
          have m0 : Moves e w'.st ⟨0, none, none, []⟩ ⟨w'.st, []⟩ := .stay (Nat.zero_le _)
          exact live_move (ev0 := [.commit hash]) (l0 := w'.log) h hs.height hs.power hr hvo hno m0 (by rw [k1, hw]; simp)
            (by rw [k2, hw]) k3 (by rw [k4, e4]; rfl) (by simp) (by rw [k5, hw]; simp)
        generalize hw : res.2 = w' at *
        cases o with
        | none => exact same _ rfl (.refl _) rfl rfl (by simp)
        | lost content qc => exact same _ rfl (.refl _) rfl rfl (by simp)
        | failed content qc => exact same _ rfl (.refl _) rfl rfl (by simp)
        | stuck content qc status x => exact same _ rfl ⟨rfl, rfl, rfl⟩ rfl rfl (by simp)
        | done content qc status w hb hq hs hc hm =>
          exact live_move (s := { n.st with authority := Authority.update status.authorityList }) (ev0 := [.commit hash])
            (l0 := [.saveWal (commitRec n.st qc content) true,
          .commitCall n.st.height (mkCommit n.st hash content qc) (some status)]) h rfl rfl rfl rfl (by simp) hm k1 k2 k3
            (by rw [k4, e4]; rfl) (by simp) k5
      | brake r lr o =>
        refine ⟨fun hup => ?_, fun hk hg => ?_⟩
        · obtain ⟨hc, hr⟩ := took_up hup
          obtain ⟨k1, k2, k3, k4, k5⟩ := key hr hc _ rfl
          refine live_quiet h k1 ?_ (by rw [k2]; exact o.same) (by rw [k2]; exact o.round) k3 k5 hnw
            (by rw [k4, e4]; exact fun ev hev => List.mem_cons_of_mem _ hev) ?_
          · rcases o.out with ho | ⟨lock, _, ho⟩
            · exact .inl ho
            · exact .inr ⟨_, ho⟩
          · intro _ p r m hc
            rw [k4]; rw [e4] at hc; exact hc
        · rcases o.out with ho | ⟨lock, _, ho⟩
          · rw [ho]; exact goodAll_nil hg
          · rw [ho]
            refine goodAll_cons hg (goodAll_nil (good_save hg _ ?_))
            rw [hv0 hk]
            intro v hv
            have := h.gV hp v hv
            simp only [votePos, recPos, walRec, Pos.le, Step.toNat_brake] at this ⊢; omega
      | stale h0 r lr hh hw =>
        refine ⟨fun hup => ?_, fun _ hg => by rw [hw]; exact goodAll_nil hg⟩
        exact (quiet (by rw [hw]; rfl) (by rw [hw]; exact .refl _) (by rw [hw]) (by
          intro _ p r m hc; rw [e4] at hc; exact hc)).1 hup
      | stop hw =>
        refine ⟨fun hup => ?_, fun _ hg => by rw [hw]; exact goodAll_nil hg⟩
        exact (quiet (by rw [hw]; rfl) (by rw [hw]; exact .refl _) (by rw [hw]) (by
          intro _ p r m hc; rw [e4] at hc; exact hc)).1 hup

end Overlord
