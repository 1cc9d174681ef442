import Verif.Proofs.Deliver
import Verif.Spec.NoGap

/-! No height is left out (used for C75). -/

set_option linter.unusedSimpArgs false
set_option linter.unusedVariables false
set_option linter.unusedSectionVars false
set_option linter.unnecessarySeqFocus false

namespace Overlord
open M Spec

variable {T : Type} [ContentCodec T] [DecidableEq T]

namespace Gap

/-- All heights from `h0` up to `k` (without `k`) have been handed over. -/
def Upto (h0 k : Nat) (l : List (Effect T)) : Prop := h0 ≤ k ∧ ∀ j, h0 ≤ j → j < k → Applied l j

theorem upto_more {h0 k : Nat} {l l' : List (Effect T)} (h : Upto h0 k l) : Upto h0 k (l ++ l') := by
  refine ⟨h.1, fun j h1 h2 => ?_⟩
  obtain ⟨c, hc⟩ := h.2 j h1 h2
  exact ⟨c, by rw [Dlv.callsOf_append]; exact List.mem_append_left _ hc⟩

theorem upto_next {h0 k : Nat} {l : List (Effect T)} (h : Upto h0 k l) (ha : Applied l k) : Upto h0 (k + 1) l := by
  refine ⟨Nat.le_succ_of_le h.1, fun j h1 h2 => ?_⟩
  rcases Nat.lt_or_ge j k with h3 | h3
  · exact h.2 j h1 h3
  · have : j = k := by omega
    rw [this]; exact ha

structure Good (h0 : Nat) (l : List (Effect T)) : Prop where
  calls : ∀ x ∈ callsOf l, Upto h0 x.1 l
  saved : ∀ w ∈ savedOf l, Upto h0 w.height l

/-- What an input does to heights. -/
inductive Step (s : State T) (w : World T) : Prop
  | quiet (h1 : callsOf w.log = []) (h2 : ∀ v ∈ savedOf w.log, v.height = s.height) (h3 : w.st.height = s.height)
  | commit (r : WalInfo T) (ok : Bool) (c : Commit T) (res : Option Status) (l : List (Effect T))
      (h0 : w.log = .saveWal r ok :: .commitCall s.height c res :: l) (h1 : r.height = s.height) (h2 : callsOf l = [])
      (h3 : ∀ v ∈ savedOf l, v.height = s.height + 1) (h4 : w.st.height = s.height ∨ w.st.height = s.height + 1)

theorem good_quiet {h0 k : Nat} {L l : List (Effect T)} (h : Good h0 L) (hk : Upto h0 k L) (h1 : callsOf l = [])
    (h2 : ∀ v ∈ savedOf l, v.height = k) : Good h0 (L ++ l) := by
  constructor
  · intro x hx
    rw [Dlv.callsOf_append, h1, List.append_nil] at hx
    exact upto_more (h.calls x hx)
  · intro v hv
    rw [Single.savedOf_append] at hv
    rcases List.mem_append.1 hv with hv | hv
    · exact upto_more (h.saved v hv)
    · rw [h2 v hv]; exact upto_more hk

theorem step_good {h0 : Nat} {s : State T} {w : World T} {L : List (Effect T)} (h : Good h0 L) (hk : Upto h0 s.height L)
    (o : Step s w) (cut : Option Nat) :
    Good h0 (L ++ cutTo cut w.log) ∧ (cut = none → Upto h0 w.st.height (L ++ cutTo cut w.log)) := by
  cases o with
  | quiet h1 h2 h3 =>
    refine ⟨good_quiet h hk (Dlv.calls_cut h1 cut) (fun v hv => h2 v (Single.cut_sub _ cut _ v hv)), fun _ => ?_⟩
    rw [h3]; exact upto_more hk
  | commit r ok c res l e0 h1 h2 h3 h4 =>
    have hrec : ∀ v ∈ savedOf [Effect.saveWal r ok], v.height = s.height := by
      intro v hv
      cases ok <;> simp [savedOf] at hv
      rw [hv]; exact h1
    have a1 : Good h0 (L ++ [Effect.saveWal r ok]) := good_quiet h hk (by simp [callsOf]) hrec
    have k1 : Upto h0 s.height (L ++ [Effect.saveWal r ok]) := upto_more hk
    have ap : Applied (L ++ [Effect.saveWal r ok] ++ [.commitCall s.height c res]) s.height :=
      ⟨c, by rw [Dlv.callsOf_append]; exact List.mem_append_right _ (by simp [callsOf])⟩
    have a2 : Good h0 (L ++ [Effect.saveWal r ok] ++ [.commitCall s.height c res]) := by
      constructor
      · intro x hx
        rw [Dlv.callsOf_append] at hx
        rcases List.mem_append.1 hx with hx | hx
        · exact upto_more (a1.calls x hx)
        · have : x = (s.height, c) := by simpa [callsOf] using hx
          rw [this]; exact upto_more k1
      · intro v hv
        rw [Single.savedOf_append] at hv
        rcases List.mem_append.1 hv with hv | hv
        · exact upto_more (a1.saved v hv)
        · simp [savedOf] at hv
    have k2 : Upto h0 (s.height + 1) (L ++ [Effect.saveWal r ok] ++ [.commitCall s.height c res]) := upto_next (upto_more k1) ap
    have a3 : ∀ l', (∀ v ∈ savedOf l', v ∈ savedOf l) → callsOf l' = [] →
        Good h0 (L ++ .saveWal r ok :: .commitCall s.height c res :: l') := by
      intro l' g1 g2
      have := good_quiet a2 k2 g2 (fun v hv => h3 v (g1 v hv))
      simpa using this
    cases cut with
    | none =>
      simp only [cutTo, e0]
      refine ⟨a3 l (fun _ hv => hv) h2, fun _ => ?_⟩
      have k3 : Upto h0 (s.height + 1) (L ++ .saveWal r ok :: .commitCall s.height c res :: l) := by
        have := upto_more (l' := l) k2
        simpa using this
      rcases h4 with h4 | h4 <;> rw [h4]
      · exact ⟨hk.1, fun j j1 j2 => k3.2 j j1 (by omega)⟩
      · exact k3
    | some m =>
      refine ⟨?_, by simp⟩
      simp only [cutTo, e0]
      match m with
      | 0 => simpa using h
      | 1 => simpa using a1
      | m + 2 =>
        simp only [List.take_succ_cons]
        exact a3 _ (fun v hv => Single.cut_sub _ (some m) l v hv) (Dlv.calls_cut h2 (some m))

theorem moves_next {e : Env T} {s : State T} {status : Status} {w : World T} (m : Moves e s status w) :
    (w.st.height = s.height ∨ w.st.height = status.height) ∧ ∀ v ∈ savedOf w.log, v.height = status.height := by
  cases m with
  | stay hh => exact ⟨.inl rfl, by simp [savedOf]⟩
  | away hh hp => exact ⟨.inr rfl, by simp [savedOf]⟩
  | lost hh hp hs => exact ⟨.inr rfl, by simp [savedOf]⟩
  | adopt hh hp hs =>
    refine ⟨.inr rfl, fun v hv => ?_⟩
    have hv := Single.mem_saved.1 hv
    dsimp only at hv
    rw [obs_adopt _ _ _ _ status.toSMR rfl] at hv
    simp at hv
    rw [hv]; rfl

theorem commit_step {e : Env T} {s : State T} {hash : Hash} {w : World T} (hn : NextHeight e) (o : CommitOut e s hash w) : Step s w := by
  cases o with
  | none => exact .quiet rfl (by simp [savedOf]) rfl
  | lost => exact .quiet rfl (by simp [savedOf]) rfl
  | failed content qc => exact .commit _ _ _ _ [] rfl rfl rfl (by simp [savedOf]) (.inl rfl)
  | stuck content qc => exact .commit _ _ _ _ [] rfl rfl rfl (by simp [savedOf]) (.inl rfl)
  | done content qc status w2 hb hq hs hc hm =>
    obtain ⟨m1, m2⟩ := moves_next hm
    have hh := hn _ _ _ hc
    rw [hh] at m1 m2
    exact .commit _ _ _ _ w2.log rfl rfl (Dlv.moves_calls hm) m2 m1

theorem arm_step {e : Env T} {s : State T} {i : Input T} (hi : i ≠ .start) (hn : NextHeight e)
    (hst : ∀ st, i = .verified (.richStatus st) → st.height ≤ s.height) : Step s (runArm i e ⟨s, []⟩).2 := by
  have o := arm_out e s i hi
  generalize (runArm i e ⟨s, []⟩).2 = w at o
  have same : SamePos s w.st → (∀ k c r, .call k c r ∉ obs w.log) → (∀ v, .save v ∈ obs w.log → v.height = s.height) → Step s w :=
    fun h1 h2 h3 => .quiet (Dlv.calls_obs h2) (fun v hv => h3 v (Single.mem_saved.1 hv)) h1.height
  cases o with
  | quiet ho hs hr => exact same hs (by simp [ho]) (by simp [ho])
  | status st hi o =>
    have hle := hst st hi
    cases o with
    | stay hh => exact .quiet rfl (by simp [savedOf]) rfl
    | away hh hp => omega
    | lost hh hp hs => omega
    | adopt hh hp hs => omega
  | event ev hi hp o =>
    cases o with
    | newRound h r lr lp f ni nc o =>
      refine same o.same ?_ ?_ <;>
      · rcases o.out with ho | ⟨lock, u, _, ho⟩ <;> rw [ho] <;> simp (config := { contextual := true })
    | prevote h r hash lr o =>
      refine same o.same ?_ ?_ <;>
      · rcases o.out with ho | ⟨lock, sv, _, _, _, ho⟩ <;> rw [ho] <;> simp (config := { contextual := true }) [walRec]
    | precommit h r hash lr o =>
      refine same o.same ?_ ?_ <;>
      · rcases o.out with ho | ⟨lock, sv, _, _, _, ho⟩ <;> rw [ho] <;> simp (config := { contextual := true }) [walRec]
    | commit hash o => exact commit_step hn o
    | brake r lr o =>
      refine same o.same ?_ ?_ <;>
      · rcases o.out with ho | ⟨lock, _, ho⟩ <;> rw [ho] <;> simp (config := { contextual := true }) [walRec]
    | stale h r lr hh hw => rw [hw]; exact .quiet rfl (by simp [savedOf]) rfl
    | stop hw => rw [hw]; exact .quiet rfl (by simp [savedOf]) rfl

/-- A node that is not a validator does nothing of interest, and stays one. -/
theorem arm_idle {e : Env T} {s : State T} {i : Input T} (hi : i ≠ .start) (hp : s.consensusPower = false)
    (hst : ∀ st, i = .verified (.richStatus st) → st.height ≤ s.height) :
    obs (runArm i e ⟨s, []⟩).2.log = [] ∧ (runArm i e ⟨s, []⟩).2.st.consensusPower = false := by
  have o := arm_out e s i hi
  generalize (runArm i e ⟨s, []⟩).2 = w at o
  cases o with
  | quiet ho hs hr => exact ⟨ho, by rw [hs.power]; exact hp⟩
  | status st hi o =>
    have hle := hst st hi
    cases o with
    | stay hh => exact ⟨rfl, hp⟩
    | away hh hp => omega
    | lost hh hp hs => omega
    | adopt hh hp hs => omega
  | event ev hi hp' o => rw [hp] at hp'; cases hp'

/-- A start: of a node that is no validator; or at a height up to which everything has been handed over. -/
theorem start_step {h0 : Nat} {addr : Address} {n : NodeSys T} {p : StartParams} {e : Env T} {cut : Option Nat}
    (h : Good h0 n.log) (ok : StartsAt h0 addr n (.start p e cut)) :
    (obs (runArm .start e ⟨(State.new addr p.initHeight p.interval p.list : State T), []⟩).2.log = [] ∧
      (runArm .start e ⟨(State.new addr p.initHeight p.interval p.list : State T), []⟩).2.st.consensusPower = false) ∨
    ∃ s, Upto h0 s.height n.log ∧ Step s (runArm .start e ⟨(State.new addr p.initHeight p.interval p.list : State T), []⟩).2 := by
  obtain ⟨ok, hn, hini⟩ := ok
  have hpow := new_power (T := T) addr p
  have o := start_out e (State.new addr p.initHeight p.interval p.list : State T)
  have hSh : (State.new addr p.initHeight p.interval p.list : State T).height = p.initHeight := rfl
  generalize hS : (State.new addr p.initHeight p.interval p.list : State T) = S at *
  generalize (runArm .start e ⟨S, []⟩).2 = w at *
  simp only [StartOk] at ok
  -- nothing was saved: the height is `h0`
  have new : (lastSaved n.log : Option (WalInfo T)) = none → Upto h0 S.height n.log := by
    intro hl
    rw [hSh, hini hl]
    exact ⟨Nat.le_refl _, fun j h1 h2 => by omega⟩
  -- a record was loaded
  have found : ∀ (rec : WalInfo T) b, S.consensusPower = true → e.walLoad = some (some b) → decWalInfo b = .ok rec →
      Upto h0 rec.height n.log := by
    intro rec b hp hl hd
    rw [hpow] at hp
    rw [if_pos hp] at ok
    cases hls : (lastSaved n.log : Option (WalInfo T)) with
    | none =>
      simp only [hls] at ok
      rw [hl] at ok; cases ok
    | some v =>
      simp only [hls] at ok
      obtain ⟨_, b', h1, h2⟩ := ok
      rw [hl] at h1; cases h1
      rw [hd] at h2; cases h2
      exact h.saved _ (List.mem_of_getLast? hls)
  cases o with
  | idle hw hi =>
    subst hw
    cases hp : S.consensusPower with
    | false => exact .inl ⟨rfl, rfl⟩
    | true =>
      refine .inr ⟨S, ?_, .quiet rfl (by simp [savedOf]) rfl⟩
      have hp' : (p.list.map Node.address).contains addr = true := by rw [← hpow]; exact hp
      rw [if_pos hp'] at ok
      cases hls : (lastSaved n.log : Option (WalInfo T)) with
      | none => exact new hls
      | some v =>
        simp only [hls] at ok
        obtain ⟨_, b', h1, h2⟩ := ok
        rcases hi hp with (h3 | ⟨b, y, h3, h4⟩) | ⟨h3, _⟩
        · rw [h1] at h3; cases h3
        · rw [h1] at h3; cases h3; rw [h2] at h4; cases h4
        · rw [h1] at h3; cases h3
  | fresh hp hl hh hw =>
    have hn : (lastSaved n.log : Option (WalInfo T)) = none := by
      have hp' : (p.list.map Node.address).contains addr = true := by rw [← hpow]; exact hp
      rw [if_pos hp'] at ok
      cases hls : (lastSaved n.log : Option (WalInfo T)) with
      | none => rfl
      | some v =>
        simp only [hls] at ok
        obtain ⟨_, b', h1, h2⟩ := ok
        rw [hl] at h1; cases h1
    subst hw
    exact .inr ⟨S, new hn, .quiet rfl (by simp [savedOf]) rfl⟩
  | noLeader b rec x hp hl hd hx hw =>
    subst hw
    exact .inr ⟨{ S with height := rec.height, round := rec.round }, found rec b hp hl hd, .quiet rfl (by simp [savedOf]) rfl⟩
  | noLock b rec pr hp hl hd hx hst hlk hw =>
    subst hw
    exact .inr ⟨S.restored rec pr, by rw [(restored_pos S rec pr).1]; exact found rec b hp hl hd, .quiet rfl (by simp [savedOf]) rfl⟩
  | commit b rec pr lock hp hl hd hx hst hlk o =>
    exact .inr ⟨S.restored rec pr, by rw [(restored_pos S rec pr).1]; exact found rec b hp hl hd, commit_step hn o⟩
  | brake b rec pr hp hl hd hx hst w1 o hw =>
    obtain ⟨r1, r2, r3, r4⟩ := restored_pos S rec pr
    have hob : obs w.log = obs w1.log ∧ w.st = w1.st := by
      rcases hw with hw | hw
      · rw [hw]; exact ⟨rfl, rfl⟩
      · rw [hw]; refine ⟨?_, rfl⟩; dsimp only; rw [obs_append]; simp [obs, obsOf, walTrig, stTrigger, releasedVote]
    refine .inr ⟨S.restored rec pr, by rw [r1]; exact found rec b hp hl hd, .quiet (Dlv.calls_obs (by
      rw [hob.1]
      rcases o.out with ho | ⟨lk, _, ho⟩ <;> rw [ho] <;> simp)) (fun v hv => ?_) ?_⟩
    · have hv := Single.mem_saved.1 hv
      rw [hob.1] at hv
      rcases o.out with ho | ⟨lk, _, ho⟩ <;> rw [ho] at hv
      · cases hv
      · simp at hv
        subst hv; rfl
    · rw [hob.2, o.same.height]
  | resume b rec pr hp hl hd hx hst hsb hw =>
    subst hw
    exact .inr ⟨S.restored rec pr, by rw [(restored_pos S rec pr).1]; exact found rec b hp hl hd, .quiet rfl (by simp [savedOf]) rfl⟩

structure Inv (h0 : Nat) (n : NodeSys T) : Prop where
  good : Good h0 n.log
  up : n.down = false → n.st.consensusPower = true → Upto h0 n.st.height n.log

theorem inv_new (h0 : Nat) (addr : Address) : Inv h0 (NodeSys.new addr : NodeSys T) :=
  ⟨⟨by simp [NodeSys.new, NodeSys.fresh, callsOf], by simp [NodeSys.new, NodeSys.fresh, savedOf]⟩, by simp [NodeSys.new, NodeSys.fresh]⟩

theorem inv_step {h0 : Nat} {addr : Address} {n n' : NodeSys T} {a : NAct T} (h : Inv h0 n) (ok : StartsAt h0 addr n a)
    (ha : n.act addr a = some n') : Inv h0 n' := by
  rcases act_log ha with ⟨h1, h2⟩ | ⟨i, e, cut, s, h1, h2, h3⟩
  · refine ⟨by rw [h1]; exact h.good, fun hd => ?_⟩
    obtain ⟨g1, g2⟩ := h2 hd
    rw [h1, g2]; exact h.up g1
  · have fin : ∀ s', Upto h0 s'.height n.log → Step s' (runArm i e ⟨s, []⟩).2 → Inv h0 n' := by
      intro s' hk hl
      obtain ⟨g1, g2⟩ := step_good h.good hk hl cut
      refine ⟨by rw [h1]; exact g1, fun hup _ => ?_⟩
      obtain ⟨e1, e2⟩ := h2 hup
      rw [h1, e2]; exact g2 e1
    have idle : obs (runArm i e ⟨s, []⟩).2.log = [] → (runArm i e ⟨s, []⟩).2.st.consensusPower = false → Inv h0 n' := by
      intro g1 g2
      have hc : callsOf (runArm i e ⟨s, []⟩).2.log = [] := Dlv.calls_obs (by simp [g1])
      have hs : ∀ v, v ∉ savedOf (runArm i e ⟨s, []⟩).2.log := fun v hv => by
        have := Single.mem_saved.1 hv
        rw [g1] at this; cases this
      refine ⟨?_, fun hup hp => ?_⟩
      · rw [h1]
        constructor
        · intro x hx
          rw [Dlv.callsOf_append, Dlv.calls_cut hc, List.append_nil] at hx
          exact upto_more (h.good.calls x hx)
        · intro v hv
          rw [Single.savedOf_append] at hv
          rcases List.mem_append.1 hv with hv | hv
          · exact upto_more (h.good.saved v hv)
          · exact absurd (Single.cut_sub _ cut _ v hv) (hs v)
      · rw [(h2 hup).2, g2] at hp; cases hp
    rcases h3 with ⟨hd, rfl, hi, x, n1, ht, rfl⟩ | ⟨hd, rfl, p, rfl, rfl⟩
    · obtain ⟨-, hn, hst⟩ := ok
      have hst' : ∀ st, i = .verified (.richStatus st) → st.height ≤ n.st.height := by
        intro st hi'
        subst hi'
        cases x with
        | verified =>
          simp only [NodeSys.take] at ht
          split at ht
          · cases ht
          · rename_i m q hq
            cases ht
            exact hst rfl st q hq
        | raw m => simp only [NodeSys.take] at ht; cases ht
        | event => simp only [NodeSys.take] at ht; split at ht <;> cases ht
        | resp => simp only [NodeSys.take] at ht; split at ht <;> cases ht
      cases hp : n.st.consensusPower with
      | true => exact fin _ (h.up hd hp) (arm_step hi hn hst')
      | false =>
        obtain ⟨g1, g2⟩ := arm_idle (e := e) hi hp hst'
        exact idle g1 g2
    · rcases start_step h.good ok with ⟨g1, g2⟩ | ⟨s', g1, g2⟩
      · exact idle g1 g2
      · exact fin s' g1 g2

/-- A strictly rising list that leaves no number out. -/
theorem eq_range {l : List Nat} : ∀ {h0 : Nat}, l.Pairwise (· < ·) → (∀ x ∈ l, h0 ≤ x ∧ ∀ j, h0 ≤ j → j < x → j ∈ l) →
    l = List.range' h0 l.length := by
  induction l with
  | nil => intro h0 _ _; rfl
  | cons x xs ih =>
    intro h0 hp hc
    obtain ⟨hx, hp'⟩ := List.pairwise_cons.1 hp
    have e : x = h0 := by
      obtain ⟨h1, h2⟩ := hc x (by simp)
      rcases Nat.lt_or_ge h0 x with h | h
      · rcases List.mem_cons.1 (h2 h0 (Nat.le_refl _) h) with h3 | h3
        · exact h3.symm
        · have := hx h0 h3; omega
      · omega
    subst e
    rw [List.length_cons, List.range'_succ]
    congr 1
    refine ih hp' fun y hy => ⟨hx y hy, fun j j1 j2 => ?_⟩
    rcases List.mem_cons.1 ((hc y (List.mem_cons_of_mem _ hy)).2 j (by omega) j2) with h | h
    · omega
    · exact h

theorem strict {l : List Nat} (h : l.Pairwise (· ≤ ·)) : l.dedup.Pairwise (· < ·) := by
  have h1 : l.dedup.Pairwise (· ≤ ·) := h.sublist (List.dedup_sublist _)
  have h2 : l.dedup.Pairwise (· ≠ ·) := List.nodup_dedup l
  exact (h1.and h2).imp fun ⟨a, b⟩ => Nat.lt_of_le_of_ne a b

theorem mem_heights {l : List (Effect T)} {k : Nat} : k ∈ heightsOf l ↔ Applied l k := by
  simp only [heightsOf, List.mem_dedup, List.mem_map, Applied]
  constructor
  · rintro ⟨⟨k', c⟩, h, rfl⟩; exact ⟨c, h⟩
  · rintro ⟨c, h⟩; exact ⟨(k, c), h, rfl⟩

theorem heights_range {h0 : Nat} {l : List (Effect T)} (h : Good h0 l) (hs : (callsOf l).Pairwise fun a b => a.1 ≤ b.1) :
    heightsOf l = List.range' h0 (heightsOf l).length := by
  refine eq_range (strict (by rw [List.pairwise_map]; exact hs)) fun x hx => ?_
  obtain ⟨c, hc⟩ := mem_heights.1 hx
  obtain ⟨h1, h2⟩ := h.calls _ hc
  exact ⟨h1, fun j j1 j2 => mem_heights.2 (h2 j j1 j2)⟩

end Gap
end Overlord
