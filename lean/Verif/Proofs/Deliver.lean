import Verif.Props.Node2
import Verif.Proofs.Single
import Verif.Spec.Deliver

/-! The application gets each height once, or the same commit again after a restart (used for C72). -/

set_option linter.unusedSimpArgs false
set_option linter.unusedVariables false
set_option linter.unusedSectionVars false
set_option linter.unnecessarySeqFocus false

namespace Overlord
open M Spec

variable {T : Type} [ContentCodec T] [DecidableEq T]

namespace Dlv

abbrev Call (T : Type) := Nat × Commit T

/-- A start from the record `w` does not bring a call before `x`, or another call of its height. -/
def Before (x : Call T) (w : WalInfo T) : Prop :=
  x.1 < w.height ∨ (x.1 = w.height ∧ w.step = .commit ∧ recordedCommit w = some x.2)

theorem callsOf_append (l l' : List (Effect T)) : callsOf (l ++ l') = callsOf l ++ callsOf l' := by simp [callsOf]

structure Ord (l : List (Effect T)) : Prop where
  sorted : (callsOf l).Pairwise EarlierOrSame
  saved : ∀ x ∈ callsOf l, ∃ w, (savedOf l).getLast? = some w ∧ Before x w

theorem calls_cut {l : List (Effect T)} (h : callsOf l = []) (c : Option Nat) : callsOf (cutTo c l) = [] := by
  refine List.eq_nil_iff_forall_not_mem.2 fun x hx => ?_
  have := Single.cut_sub _ c l x hx
  unfold callsOf at h
  rw [h] at this; cases this

theorem ord_quiet {L l : List (Effect T)} (h : Ord L) (h1 : callsOf l = [])
    (h2 : ∀ w ∈ savedOf l, ∀ x ∈ callsOf L, Before x w) (c : Option Nat) : Ord (L ++ cutTo c l) := by
  have e2 : callsOf (L ++ cutTo c l) = callsOf L := by rw [callsOf_append, calls_cut h1, List.append_nil]
  refine ⟨by rw [e2]; exact h.sorted, ?_⟩
  rw [e2, Single.savedOf_append]
  intro p hp
  cases hs : (savedOf (cutTo c l)).getLast? with
  | none =>
    rw [List.getLast?_eq_none_iff] at hs
    rw [hs, List.append_nil]; exact h.saved p hp
  | some w =>
    exact ⟨w, by rw [List.getLast?_append, hs]; rfl, h2 w (Single.cut_sub _ c l w (List.mem_of_getLast? hs)) p hp⟩

theorem ord_commit {L l2 : List (Effect T)} {w : WalInfo T} {k : Nat} {cm : Commit T} {r : Option Status} (h : Ord L)
    (h1 : ∀ y ∈ callsOf L, Before y w) (hk : k = w.height) (hst : w.step = .commit) (hrc : recordedCommit w = some cm)
    (h2 : callsOf l2 = []) (h3 : ∀ v ∈ savedOf l2, w.height < v.height) (c : Option Nat) :
    Ord (L ++ cutTo c ([.saveWal w true, .commitCall k cm r] ++ l2)) := by
  subst hk
  have hsave : Ord (L ++ [.saveWal w true]) := by
    have := ord_quiet (l := [.saveWal w true]) h rfl (by
      intro v hv y hy
      have : v = w := by simpa [savedOf] using hv
      rw [this]; exact h1 y hy) none
    exact this
  have hboth : Ord (L ++ [.saveWal w true, .commitCall w.height cm r]) := by
    have ec : callsOf (L ++ [.saveWal w true, .commitCall w.height cm r]) = callsOf L ++ [(w.height, cm)] := by
      rw [callsOf_append]; rfl
    have es : (savedOf (L ++ [.saveWal w true, .commitCall w.height cm r])).getLast? = some w := by
      rw [Single.savedOf_append]; simp [savedOf]
    refine ⟨?_, ?_⟩
    · rw [ec, List.pairwise_append]
      refine ⟨h.sorted, by simp, fun a ha b hb => ?_⟩
      rw [List.mem_singleton.1 hb]
      rcases h1 a ha with h5 | ⟨h5, _, h6⟩
      · exact .inl h5
      · right
        rw [hrc] at h6
        cases h6
        exact Prod.ext h5 rfl
    · rw [ec]
      intro y hy
      refine ⟨w, es, ?_⟩
      rcases List.mem_append.1 hy with hy | hy
      · exact h1 y hy
      · rw [List.mem_singleton.1 hy]; exact .inr ⟨rfl, hst, hrc⟩
  have hrest : ∀ c', Ord (L ++ [.saveWal w true, .commitCall w.height cm r] ++ cutTo c' l2) := by
    intro c'
    refine ord_quiet hboth h2 (fun v hv y hy => ?_) c'
    left
    have hw := h3 v hv
    rw [callsOf_append] at hy
    rcases List.mem_append.1 hy with hy | hy
    · rcases h1 y hy with h5 | ⟨h5, _⟩ <;> omega
    · have : y = (w.height, cm) := by simpa [callsOf] using hy
      rw [this]; exact hw
  cases c with
  | none => have := hrest none; rw [List.append_assoc] at this; exact this
  | some j =>
    match j with
    | 0 => simpa [cutTo] using h
    | 1 => simpa [cutTo] using hsave
    | j + 2 => have := hrest (some j); rw [List.append_assoc] at this; exact this

/-- What a step of a State at `s` does to the calls. -/
inductive Shape (s : State T) (w : World T) : Prop
  | quiet (hc : callsOf w.log = [])
      (hs : ∀ v ∈ savedOf w.log, s.height < v.height ∨ (s.consensusPower = true ∧ v.height = s.height))
      (hm : (w.st.height = s.height ∧ w.st.consensusPower = s.consensusPower) ∨ s.height < w.st.height)
  | commit (v cm r l2) (hl : w.log = [.saveWal v true, .commitCall s.height cm r] ++ l2) (hh : s.height = v.height)
      (hst : v.step = .commit) (hrc : recordedCommit v = some cm) (hp : s.consensusPower = true)
      (hc : callsOf l2 = []) (hs : ∀ x ∈ savedOf l2, v.height < x.height) (hm : s.height < w.st.height)

theorem calls_obs {l : List (Effect T)} (h : ∀ k c r, .call k c r ∉ obs l) : callsOf l = [] := by
  refine List.eq_nil_iff_forall_not_mem.2 fun x hx => ?_
  obtain ⟨y, hy, he⟩ := List.mem_filterMap.1 hx
  cases y with
  | commitCall k c r => exact h k c r (List.mem_filterMap.2 ⟨_, hy, rfl⟩)
  | _ => simp at he

theorem moves_calls {e : Env T} {s : State T} {status : Status} {w : World T} (m : Moves e s status w) : callsOf w.log = [] :=
  moves_noCommit m

theorem moves_shape {e : Env T} {s : State T} {status : Status} {w : World T} (m : Moves e s status w) : Shape s w := by
  rcases Single.moves_obs m with ⟨m1, m2⟩ | ⟨m1, m2, m3⟩
  · refine .quiet (moves_calls m) (fun v hv => ?_) (.inl ⟨by rw [m1], by rw [m1]⟩)
    have := Single.mem_saved.1 hv
    rw [m2] at this; cases this
  · refine .quiet (moves_calls m) (fun v hv => .inl ?_) (.inr m1)
    rw [m3 v (Single.mem_saved.1 hv)]; exact m1

theorem commit_shape {e : Env T} {s : State T} {hash : Hash} {w : World T} (hf : Filed s) (ha : Answers e)
    (hp : s.consensusPower = true) (o : CommitOut e s hash w) : Shape s w := by
  have nothing : w.st = s → callsOf w.log = [] → savedOf w.log = [] → Shape s w := fun h1 h2 h3 =>
    .quiet h2 (by rw [h3]; simp) (.inl ⟨by rw [h1], by rw [h1]⟩)
  cases o with
  | none => exact nothing rfl rfl rfl
  | lost => exact nothing rfl rfl rfl
  | failed content qc hb hq hs hc => exact absurd hc (ha.2 _ _)
  | stuck content qc status x hb hq hs hc hx =>
    obtain ⟨_, l, hl⟩ := ha.1 _ _ _ hc
    rw [hl] at hx; cases hx
  | done content qc status w2 hb hq hs hc hm =>
    obtain ⟨hlt, _⟩ := ha.1 _ _ _ hc
    obtain ⟨a1, a2, a3, _⟩ := hf.votes.getQcByHash hq
    have hup : s.height < w2.st.height := by
      cases hm with
      | stay hh => have : status.height ≤ s.height := hh; omega
      | away hh => exact hh
      | lost hh => exact hh
      | adopt hh => exact hh
    refine .commit (commitRec s qc content) (mkCommit s hash content qc) (some status) w2.log rfl rfl rfl ?_ hp
      (moves_calls hm) (fun x hx => ?_) hup
    · simp [recordedCommit, commitRec, walRec, mkCommit, a2]
    · rcases Single.moves_obs hm with ⟨m1, m2⟩ | ⟨m1, m2, m3⟩
      · have := Single.mem_saved.1 hx
        rw [m2] at this; cases this
      · rw [m3 x (Single.mem_saved.1 hx)]; exact m1

theorem arm_shape {e : Env T} {s : State T} {i : Input T} (hf : Filed s) (ha : Answers e) (hi : i ≠ .start) :
    Shape s (runArm i e ⟨s, []⟩).2 := by
  have o := arm_out e s i hi
  generalize (runArm i e ⟨s, []⟩).2 = w at o
  cases o with
  | quiet ho hs hr =>
    exact .quiet (calls_obs (by simp [ho])) (fun v hv => by have := Single.mem_saved.1 hv; rw [ho] at this; cases this)
      (.inl ⟨hs.height, hs.power⟩)
  | status st hi o => exact moves_shape o
  | event ev hi hp o =>
    -- votes, rounds, brakes: records of this height
    have same : SamePos s w.st → (∀ k c r, .call k c r ∉ obs w.log) → (∀ v, .save v ∈ obs w.log → v.height = s.height) → Shape s w :=
      fun h1 h2 h3 => .quiet (calls_obs h2) (fun v hv => .inr ⟨hp, h3 v (Single.mem_saved.1 hv)⟩) (.inl ⟨h1.height, h1.power⟩)
    cases o with
    | newRound h r lr lp f ni nc o =>
      refine same o.same ?_ ?_ <;>
      · rcases o.out with ho | ⟨lock, u, _, ho⟩ <;> rw [ho] <;> simp (config := { contextual := true })
    | prevote h r hash lr o =>
      refine same o.same ?_ ?_ <;>
      · rcases o.out with ho | ⟨lock, sv, _, _, _, ho⟩ <;> rw [ho] <;> simp (config := { contextual := true }) [walRec]
    | precommit h r hash lr o =>
      refine same o.same ?_ ?_ <;>
      · rcases o.out with ho | ⟨lock, sv, _, _, _, ho⟩ <;> rw [ho] <;> simp (config := { contextual := true }) [walRec]
    | commit hash o => exact commit_shape hf ha hp o
    | brake r lr o =>
      refine same o.same ?_ ?_ <;>
      · rcases o.out with ho | ⟨lock, _, ho⟩ <;> rw [ho] <;> simp (config := { contextual := true }) [walRec]
    | stale h r lr hh hw => rw [hw]; exact .quiet rfl (by simp [savedOf]) (.inl ⟨rfl, rfl⟩)
    | stop hw => rw [hw]; exact .quiet rfl (by simp [savedOf]) (.inl ⟨rfl, rfl⟩)

/-- The State is past the calls made. -/
def Past (P : List (Call T)) (s : State T) : Prop := ∀ x ∈ P, x.1 ≤ s.height ∧ (s.consensusPower = true → x.1 < s.height)

theorem shape_step {L : List (Effect T)} {s : State T} {w : World T} (h : Ord L) (hp : Past (callsOf L) s) (o : Shape s w)
    (c : Option Nat) : Ord (L ++ cutTo c w.log) ∧ Past (callsOf (L ++ w.log)) w.st ∧
      (callsOf w.log).Pairwise (fun a b => a.1 < b.1) ∧ ∀ x ∈ callsOf L, ∀ y ∈ callsOf w.log, x.1 < y.1 := by
  cases o with
  | quiet hc hs hm =>
    refine ⟨ord_quiet h hc (fun v hv x hx => .inl ?_) c, ?_, by rw [hc]; exact .nil, by rw [hc]; simp⟩
    · obtain ⟨a1, a2⟩ := hp x hx
      rcases hs v hv with hs | ⟨h1, h2⟩
      · omega
      · have := a2 h1; omega
    · rw [callsOf_append, hc, List.append_nil]
      intro x hx
      obtain ⟨a1, a2⟩ := hp x hx
      rcases hm with ⟨h1, h2⟩ | h1
      · rw [h1, h2]; exact ⟨a1, a2⟩
      · exact ⟨by omega, fun _ => by omega⟩
  | commit v cm r l2 hl hh hst hrc hpw hc hs hm =>
    have ec : callsOf w.log = [(s.height, cm)] := by
      rw [hl, callsOf_append, hc]; rfl
    refine ⟨?_, ?_, by rw [ec]; simp, ?_⟩
    · rw [hl]
      exact ord_commit h (fun y hy => .inl (by have := (hp y hy).2 hpw; omega)) hh hst hrc hc hs c
    · rw [callsOf_append, ec]
      intro x hx
      rcases List.mem_append.1 hx with hx | hx
      · have := (hp x hx).2 hpw
        exact ⟨by omega, fun _ => by omega⟩
      · rw [List.mem_singleton.1 hx]; exact ⟨by show s.height ≤ _; omega, fun _ => hm⟩
    · rw [ec]
      intro x hx y hy
      rw [List.mem_singleton.1 hy]
      exact (hp x hx).2 hpw

/-! ## Starts -/

theorem start_step {addr : Address} {n : NodeSys T} {p : StartParams} {e : Env T} {cut : Option Nat} (h : Ord n.log)
    (hrec : ∀ w ∈ savedOf n.log, w.step = .commit → CommitRecord w) (henc : ∀ w ∈ savedOf n.log, ∃ b, encWalInfo w = some b)
    (ok1 : StartOk addr n (.start p e cut)) (ok2 : Answers e) (ok3 : RestartOk n (.start p e cut)) :
    Ord (n.log ++ cutTo cut (runArm .start e ⟨State.new addr p.initHeight p.interval p.list, []⟩).2.log) ∧
    Past (callsOf (n.log ++ (runArm .start e ⟨State.new addr p.initHeight p.interval p.list, []⟩).2.log))
      (runArm .start e ⟨State.new addr p.initHeight p.interval p.list, []⟩).2.st := by
  have hpow := new_power (T := T) addr p
  have o := start_out e (State.new addr p.initHeight p.interval p.list : State T)
  have hpro : ∀ a b, (State.new addr p.initHeight p.interval p.list : State T).authority.getProposer e.mode a b =
      (Authority.update p.list).getProposer e.mode a b := fun _ _ => rfl
  have hfil : Filed (State.new addr p.initHeight p.interval p.list : State T) := Store.new ..
  have hSh : (State.new addr p.initHeight p.interval p.list : State T).height = p.initHeight := rfl
  generalize hS : (State.new addr p.initHeight p.interval p.list : State T) = S at *
  generalize (runArm .start e ⟨S, []⟩).2 = w at *
  simp only [StartOk] at ok1
  -- nothing is called, no record is written
  have still : callsOf w.log = [] → savedOf w.log = [] → Past (callsOf n.log) w.st →
      Ord (n.log ++ cutTo cut w.log) ∧ Past (callsOf (n.log ++ w.log)) w.st := fun h1 h2 h3 =>
    ⟨ord_quiet h h1 (by rw [h2]; simp) cut, by rw [callsOf_append, h1, List.append_nil]; exact h3⟩
  -- nothing was called before
  have noCalls : (lastSaved n.log : Option (WalInfo T)) = none → callsOf n.log = [] := fun hn =>
    List.eq_nil_iff_forall_not_mem.2 fun x hx => by
      obtain ⟨v, hv, _⟩ := h.saved x hx
      unfold lastSaved at hn
      rw [hn] at hv; cases hv
  -- the record found is the one saved last
  have found : ∀ (rec : WalInfo T) b, S.consensusPower = true → e.walLoad = some (some b) → decWalInfo b = .ok rec →
      lastSaved n.log = some rec ∧ ∀ x ∈ callsOf n.log, Before x rec := by
    intro rec b hp hl hd
    rw [hpow] at hp
    rw [if_pos hp] at ok1
    cases hls : (lastSaved n.log : Option (WalInfo T)) with
    | none =>
      simp only [hls] at ok1
      rw [hl] at ok1; cases ok1
    | some v =>
      simp only [hls] at ok1
      obtain ⟨_, b', h1, h2⟩ := ok1
      rw [hl] at h1; cases h1
      rw [hd] at h2; cases h2
      refine ⟨rfl, fun x hx => ?_⟩
      obtain ⟨v', hv', hb⟩ := h.saved x hx
      unfold lastSaved at hls
      rw [hls] at hv'; cases hv'; exact hb
  -- a State at the height of a record that is not of the commit step
  have later : ∀ (rec : WalInfo T), rec.step ≠ .commit → (∀ x ∈ callsOf n.log, Before x rec) → ∀ s : State T, s.height = rec.height →
      Past (callsOf n.log) s := by
    intro rec hst hb s hs x hx
    rcases hb x hx with h1 | ⟨_, h1, _⟩
    · exact ⟨by omega, fun _ => by omega⟩
    · exact absurd h1 hst
  cases o with
  | idle hw hi =>
    subst hw
    refine still rfl rfl fun x hx => ?_
    cases hp : S.consensusPower with
    | false =>
      rw [hpow] at hp
      rw [hp] at ok1
      simp only [Bool.false_eq_true, if_false] at ok1
      obtain ⟨v, hv, hb⟩ := h.saved x hx
      have := ok1 v (List.mem_of_getLast? hv)
      refine ⟨?_, by simp⟩
      rw [hSh]
      rcases hb with h1 | ⟨h1, _⟩ <;> omega
    | true =>
      exfalso
      have hp' : (p.list.map Node.address).contains addr = true := by rw [← hpow]; exact hp
      rw [if_pos hp'] at ok1
      cases hls : (lastSaved n.log : Option (WalInfo T)) with
      | none => rw [noCalls hls] at hx; cases hx
      | some v =>
        simp only [hls] at ok1
        obtain ⟨_, b', h1, h2⟩ := ok1
        rcases hi hp with (h3 | ⟨b, y, h3, h4⟩) | ⟨h3, _⟩
        · rw [h1] at h3; cases h3
        · rw [h1] at h3; cases h3; rw [h2] at h4; cases h4
        · rw [h1] at h3; cases h3
  | fresh hp hl hh hw =>
    have hn : (lastSaved n.log : Option (WalInfo T)) = none := by
      have hp' : (p.list.map Node.address).contains addr = true := by rw [← hpow]; exact hp
      rw [if_pos hp'] at ok1
      cases hls : (lastSaved n.log : Option (WalInfo T)) with
      | none => rfl
      | some v =>
        simp only [hls] at ok1
        obtain ⟨_, b', h1, h2⟩ := ok1
        rw [hl] at h1; cases h1
    subst hw
    refine still rfl rfl ?_
    rw [noCalls hn]; intro x hx; cases hx
  | noLeader b rec x hp hl hd hx hw =>
    obtain ⟨h1, h2⟩ := found rec b hp hl hd
    subst hw
    refine still rfl rfl (later rec (fun hst => ?_) h2 _ rfl)
    obtain ⟨⟨l, h3⟩, _⟩ := ok3 rec h1 hst
    rw [hpro, h3] at hx; cases hx
  | noLock b rec pr hp hl hd hx hst hlk hw =>
    obtain ⟨h1, h2⟩ := found rec b hp hl hd
    obtain ⟨_, l, h3, _⟩ := hrec rec (List.mem_of_getLast? h1) hst
    rw [hlk] at h3; cases h3
  | commit b rec pr lock hp hl hd hx hst hlk o =>
    obtain ⟨h1, h2⟩ := found rec b hp hl hd
    obtain ⟨_, hsv⟩ := ok3 rec h1 hst
    obtain ⟨r1, r2, r3, r4⟩ := restored_pos S rec pr
    obtain ⟨_, lock', hlk', hlr, hlh, hlt⟩ := hrec rec (List.mem_of_getLast? h1) hst
    rw [hlk] at hlk'; cases hlk'
    obtain ⟨bs, hbs⟩ := henc rec (List.mem_of_getLast? h1)
    have e1 : (S.restored rec pr).hashWithBlock.get? lock.lockVotes.blockHash = some lock.content := by
      unfold State.restored; rw [hlk]; dsimp only; rw [AMap.get?_insert, if_pos rfl]
    have e2 : (S.restored rec pr).votes.getQcByHash rec.height lock.lockVotes.blockHash .precommit = some lock.lockVotes := by
      unfold State.restored; rw [hlk]; dsimp only; rw [getQcByHash_setQc]; simp [hlh, hlt]
    have e4 : commitRec (S.restored rec pr) lock.lockVotes lock.content = rec := by
      cases rec
      simp only at hlk hst hlr
      subst hlk hst
      simp [commitRec, walRec, State.restored, ← hlr]
    cases o with
    | none hn =>
      have := hn _ _ e1 (by rw [r1]; exact e2)
      rw [e4, hbs] at this; cases this
    | lost content qc hb' hq hs' =>
      rw [e1] at hb'; cases hb'
      rw [r1, e2] at hq; cases hq
      obtain ⟨b2, g1, g2⟩ := hs'
      rw [hsv] at g2; cases g2
    | failed content qc hb' hq hs' hc => exact absurd hc (ok2.2 _ _)
    | stuck content qc status x hb' hq hs' hc hx' =>
      obtain ⟨_, l, hl'⟩ := ok2.1 _ _ _ hc
      rw [hl'] at hx'; cases hx'
    | done content qc status w2 hb' hq hs' hc hm =>
      rw [e1] at hb'; cases hb'
      rw [r1, e2] at hq; cases hq
      obtain ⟨hlt', _⟩ := ok2.1 _ _ _ hc
      have hup : (S.restored rec pr).height < w2.st.height := by
        cases hm with
        | stay hh => have : status.height ≤ (S.restored rec pr).height := hh; omega
        | away hh => exact hh
        | lost hh => exact hh
        | adopt hh => exact hh
      have hhi : ∀ v ∈ savedOf w2.log, rec.height < v.height := by
        intro v hv
        rcases Single.moves_obs hm with ⟨m1, m2⟩ | ⟨m1, m2, m3⟩
        · have := Single.mem_saved.1 hv
          rw [m2] at this; cases this
        · rw [m3 v (Single.mem_saved.1 hv), ← r1]; exact m1
      have hrc : recordedCommit rec = some (mkCommit (S.restored rec pr) lock.lockVotes.blockHash lock.content lock.lockVotes) := by
        simp [recordedCommit, hlk, mkCommit, r1]
      rw [e4]
      refine ⟨ord_commit h h2 r1 hst hrc (moves_calls hm) hhi cut, ?_⟩
      dsimp only
      rw [callsOf_append, callsOf_append, moves_calls hm]
      intro x hx'
      rw [r1] at hup
      have : x.1 < w2.st.height := by
        rcases List.mem_append.1 hx' with hx' | hx'
        · rcases h2 x hx' with g | ⟨g, _⟩ <;> omega
        · have : x = ((S.restored rec pr).height, mkCommit (S.restored rec pr) lock.lockVotes.blockHash lock.content lock.lockVotes) := by
            simpa [callsOf] using hx'
          rw [this, r1]; exact hup
      exact ⟨by omega, fun _ => this⟩
  | brake b rec pr hp hl hd hx hst w1 o hw =>
    obtain ⟨h1, h2⟩ := found rec b hp hl hd
    obtain ⟨r1, r2, r3, r4⟩ := restored_pos S rec pr
    have hne : rec.step ≠ .commit := by rw [hst]; simp
    have hob : obs w.log = obs w1.log ∧ w.st = w1.st := by
      rcases hw with hw | hw
      · rw [hw]; exact ⟨rfl, rfl⟩
      · rw [hw]; refine ⟨?_, rfl⟩; dsimp only; rw [obs_append]; simp [obs, obsOf, walTrig, stTrigger, releasedVote]
    have hc : callsOf w.log = [] := calls_obs (by
      rw [hob.1]
      rcases o.out with ho | ⟨lk, _, ho⟩ <;> rw [ho] <;> simp)
    refine ⟨ord_quiet h hc (fun v hv x hx' => ?_) cut, ?_⟩
    · have hv := Single.mem_saved.1 hv
      rw [hob.1] at hv
      rcases o.out with ho | ⟨lk, _, ho⟩ <;> rw [ho] at hv
      · cases hv
      · simp at hv
        subst hv
        left
        rcases h2 x hx' with g | ⟨_, g, _⟩
        · show x.1 < (S.restored rec pr).height
          rw [r1]; exact g
        · exact absurd g hne
    · rw [callsOf_append, hc, List.append_nil]
      exact later rec hne h2 _ (by rw [hob.2, o.same.height, r1])
  | resume b rec pr hp hl hd hx hst hsb hw =>
    obtain ⟨h1, h2⟩ := found rec b hp hl hd
    subst hw
    exact still rfl rfl (later rec hst h2 _ (restored_pos S rec pr).1)

/-! ## Whole lives -/

structure Inv (addr : Address) (n : NodeSys T) : Prop where
  reach : ∃ as, (NodeSys.new addr).run addr as = some n
  ord : Ord n.log
  enc : ∀ w ∈ savedOf n.log, ∃ b, encWalInfo w = some b
  up : n.down = false → Past (callsOf n.log) n.st

theorem inv_new (addr : Address) : Inv addr (NodeSys.new addr : NodeSys T) :=
  ⟨⟨[], rfl⟩, ⟨by simp [NodeSys.new, NodeSys.fresh, callsOf], by simp [NodeSys.new, NodeSys.fresh, callsOf]⟩,
    by simp [NodeSys.new, NodeSys.fresh, savedOf], by simp [NodeSys.new, NodeSys.fresh]⟩

theorem arm_enc {e : Env T} {i : Input T} {s : State T} {w : WalInfo T} (hw : w ∈ savedOf (runArm i e ⟨s, []⟩).2.log) :
    ∃ b, encWalInfo w = some b := by
  obtain ⟨x, hx, he⟩ := List.mem_filterMap.1 hw
  have hx' : x = .saveWal w true := by
    cases x with
    | saveWal v ok => cases ok with
      | true => simp at he; rw [he]
      | false => simp at he
    | _ => simp at he
  subst hx'
  obtain ⟨s1, eff, s2, -, hm, hx⟩ := arm_effect (P := fun _ => True) trivial (fun _ _ _ _ _ => trivial) hx
  cases hm with
  | castVote ty hash lr lock sv hsv hi hl hv ha hs =>
    have : w = walRec s1 ty.toStep lock := by split at hx <;> simpa using hx
    rw [this]; obtain ⟨b, hb, _⟩ := hsv; exact ⟨b, hb⟩
  | enterRound => split at hx <;> simp at hx
  | wal step lr lock ok hsv =>
    simp at hx; obtain ⟨h1, h2⟩ := hx; subst h2; rw [h1]; obtain ⟨b, hb, _⟩ := hsv; exact ⟨b, hb⟩
  | castChoke sc lr lock hsv =>
    simp at hx; rw [hx]; obtain ⟨b, hb, _⟩ := hsv; exact ⟨b, hb⟩
  | commit hash content qc hsv =>
    simp at hx; rw [hx]; obtain ⟨b, hb, _⟩ := hsv; exact ⟨b, hb⟩
  | adopt status hsv =>
    simp at hx; rw [hx]; obtain ⟨b, hb, _⟩ := hsv; exact ⟨b, hb⟩
  | _ => simp at hx

theorem inv_step {addr : Address} {n n' : NodeSys T} {a : NAct T} (h : Inv addr n)
    (ok : StartOk addr n a ∧ AnswersAll n a ∧ RestartOk n a) (ha : n.act addr a = some n') :
    Inv addr n' ∧ ((∀ p e c, a ≠ .start p e c) → ∃ l, n'.log = n.log ++ l ∧ (callsOf l).Pairwise (fun a b => a.1 < b.1) ∧
      ∀ x ∈ callsOf n.log, ∀ y ∈ callsOf l, x.1 < y.1) := by
  obtain ⟨ok1, ok2, ok3⟩ := ok
  have hreach : ∃ as, (NodeSys.new addr).run addr as = some n' := by
    obtain ⟨as, hr⟩ := h.reach
    exact ⟨as ++ [a], by rw [run_snoc, hr]; exact ha⟩
  rcases act_log ha with ⟨h1, h2⟩ | ⟨i, e, cut, s, h1, h2, h3⟩
  · refine ⟨⟨hreach, by rw [h1]; exact h.ord, by rw [h1]; exact h.enc, fun hd => ?_⟩, fun _ => ⟨[], by rw [h1, List.append_nil], .nil, by simp [callsOf]⟩⟩
    obtain ⟨g1, g2⟩ := h2 hd
    rw [h1, g2]; exact h.up g1
  · have henc : ∀ w ∈ savedOf n'.log, ∃ b, encWalInfo w = some b := by
      rw [h1]
      intro w hw
      rw [Single.savedOf_append] at hw
      rcases List.mem_append.1 hw with hw | hw
      · exact h.enc w hw
      · exact arm_enc (Single.cut_sub _ cut _ w hw)
    rcases h3 with ⟨hd, rfl, hi, x, n1, ht, rfl⟩ | ⟨hd, rfl, p, rfl, rfl⟩
    · obtain ⟨as, hr⟩ := h.reach
      have hf := node_filed hr hd
      obtain ⟨g1, g2, g3, g4⟩ := shape_step h.ord (h.up hd) (arm_shape hf ok2 hi) cut
      refine ⟨⟨hreach, by rw [h1]; exact g1, henc, fun hup => ?_⟩, fun _ => ⟨_, h1, ?_, ?_⟩⟩
      · obtain ⟨e1, e2⟩ := h2 hup
        subst e1
        rw [h1, e2]; exact g2
      · have : List.Sublist (callsOf (cutTo cut (runArm i e ⟨n.st, []⟩).2.log)) (callsOf (runArm i e ⟨n.st, []⟩).2.log) := by
          cases cut with
          | none => exact List.Sublist.refl _
          | some k => exact (List.take_sublist k _).filterMap _
        exact g3.sublist this
      · exact fun x hx y hy => g4 x hx y (Single.cut_sub _ cut _ y hy)
    · obtain ⟨as, hr⟩ := h.reach
      obtain ⟨g1, g2⟩ := start_step h.ord (node_commit hr).2 h.enc ok1 ok2 ok3
      refine ⟨⟨hreach, by rw [h1]; exact g1, henc, fun hup => ?_⟩, fun hns => absurd rfl (hns p e cut)⟩
      obtain ⟨e1, e2⟩ := h2 hup
      subst e1
      rw [h1, e2]; exact g2

/-! ## Heights alone -/

structure OrdLe (l : List (Effect T)) : Prop where
  sorted : (callsOf l).Pairwise fun a b => a.1 ≤ b.1
  saved : ∀ x ∈ callsOf l, ∃ w, (savedOf l).getLast? = some w ∧ x.1 ≤ w.height

/-- A step of a State at `s` calls for its height, saves nothing below it, and ends not below it; a call comes after a
record. -/
structure Level (h : Nat) (w : World T) : Prop where
  calls : callsOf w.log = [] ∨ ∃ v l, w.log = .saveWal v true :: l ∧ ∃ cm, callsOf l = [(h, cm)]
  saves : ∀ v ∈ savedOf w.log, h ≤ v.height
  up : h ≤ w.st.height

theorem level_calls {h : Nat} {w : World T} (o : Level h w) : ∀ x ∈ callsOf w.log, x.1 = h := by
  intro x hx
  rcases o.calls with hc | ⟨v, l, h1, cm, h2⟩
  · rw [hc] at hx; cases hx
  · rw [h1] at hx
    have : x ∈ callsOf l := hx
    rw [h2] at this
    rw [List.mem_singleton.1 this]

theorem level_step {L : List (Effect T)} {h : Nat} {w : World T} (ho : OrdLe L) (hp : ∀ x ∈ callsOf L, x.1 ≤ h) (o : Level h w)
    (c : Option Nat) : OrdLe (L ++ cutTo c w.log) ∧ ∀ x ∈ callsOf (L ++ w.log), x.1 ≤ w.st.height := by
  have hcalls := level_calls o
  have hcut : ∀ x ∈ callsOf (cutTo c w.log), x.1 = h := fun x hx => hcalls x (Single.cut_sub _ c _ x hx)
  refine ⟨⟨?_, ?_⟩, ?_⟩
  · rw [callsOf_append, List.pairwise_append]
    refine ⟨ho.sorted, ?_, fun x hx y hy => by rw [hcut y hy]; exact hp x hx⟩
    refine List.pairwise_iff_getElem.2 fun i j hi hj _ => ?_
    rw [hcut _ (List.getElem_mem hi), hcut _ (List.getElem_mem hj)]

  · intro x hx
    have hx' : x.1 ≤ h := by
      rw [callsOf_append] at hx
      rcases List.mem_append.1 hx with hx | hx
      · exact hp x hx
      · rw [hcut x hx]
    rw [Single.savedOf_append]
    cases hs : (savedOf (cutTo c w.log)).getLast? with
    | some v =>
      refine ⟨v, by rw [List.getLast?_append, hs]; rfl, ?_⟩
      have := o.saves v (Single.cut_sub _ c _ v (List.mem_of_getLast? hs))
      omega
    | none =>
      rw [List.getLast?_eq_none_iff] at hs
      rw [hs, List.append_nil]
      -- no record, so no call
      have : callsOf (cutTo c w.log) = [] := by
        rcases o.calls with hc | ⟨v, l, h1, cm, h2⟩
        · exact calls_cut hc c
        · rw [h1] at hs ⊢
          cases c with
          | none => simp [cutTo, savedOf] at hs
          | some j =>
            cases j with
            | zero => rfl
            | succ j => simp [cutTo, savedOf] at hs
      rw [callsOf_append, this, List.append_nil] at hx
      exact ho.saved x hx
  · intro x hx
    have := o.up
    rw [callsOf_append] at hx
    rcases List.mem_append.1 hx with hx | hx
    · have := hp x hx; omega
    · rw [hcalls x hx]; omega

theorem moves_level {e : Env T} {s : State T} {status : Status} {w : World T} (m : Moves e s status w) :
    callsOf w.log = [] ∧ (∀ v ∈ savedOf w.log, s.height ≤ v.height) ∧ s.height ≤ w.st.height := by
  refine ⟨moves_calls m, ?_⟩
  rcases Single.moves_obs m with ⟨m1, m2⟩ | ⟨m1, m2, m3⟩
  · refine ⟨fun v hv => ?_, by rw [m1]⟩
    have := Single.mem_saved.1 hv
    rw [m2] at this; cases this
  · refine ⟨fun v hv => ?_, Nat.le_of_lt m1⟩
    rw [m3 v (Single.mem_saved.1 hv)]; exact Nat.le_of_lt m1

theorem commit_level {e : Env T} {s : State T} {hash : Hash} {w : World T} (o : CommitOut e s hash w) : Level s.height w := by
  cases o with
  | none => exact ⟨.inl rfl, by simp [savedOf], Nat.le_refl _⟩
  | lost => exact ⟨.inl rfl, by simp [savedOf], Nat.le_refl _⟩
  | failed content qc =>
    exact ⟨.inr ⟨_, _, rfl, _, rfl⟩, by simp [savedOf, commitRec, walRec], Nat.le_refl _⟩
  | stuck content qc =>
    exact ⟨.inr ⟨_, _, rfl, _, rfl⟩, by simp [savedOf, commitRec, walRec], Nat.le_refl _⟩
  | done content qc status w2 hb hq hs hc hm =>
    obtain ⟨m1, m2, m3⟩ := moves_level hm
    refine ⟨.inr ⟨_, _, rfl, mkCommit s hash content qc, ?_⟩, ?_, m3⟩
    · show callsOf ([.commitCall s.height (mkCommit s hash content qc) (some status)] ++ w2.log) = _
      rw [callsOf_append, m1]; rfl
    · intro v hv
      rw [Single.savedOf_append] at hv
      rcases List.mem_append.1 hv with hv | hv
      · have : v = commitRec s qc content := by simpa [savedOf] using hv
        rw [this]; exact Nat.le_refl _
      · exact m2 v hv

theorem arm_level {e : Env T} {s : State T} {i : Input T} (hi : i ≠ .start) : Level s.height (runArm i e ⟨s, []⟩).2 := by
  have o := arm_out e s i hi
  generalize (runArm i e ⟨s, []⟩).2 = w at o
  have still : w.log = [] → w.st = s → Level s.height w := fun h1 h2 =>
    ⟨.inl (by rw [h1]; rfl), by rw [h1]; simp [savedOf], by rw [h2]⟩
  have same : SamePos s w.st → (∀ k c r, .call k c r ∉ obs w.log) → (∀ v, .save v ∈ obs w.log → v.height = s.height) → Level s.height w :=
    fun h1 h2 h3 => ⟨.inl (calls_obs h2), fun v hv => by rw [h3 v (Single.mem_saved.1 hv)], by rw [h1.height]⟩
  cases o with
  | quiet ho hs hr => exact same hs (by simp [ho]) (by simp [ho])
  | status st hi o =>
    obtain ⟨m1, m2, m3⟩ := moves_level o
    exact ⟨.inl m1, m2, m3⟩
  | event ev hi hp o =>
    cases o with
    | newRound h r lr lp f ni nc o =>
      refine same o.same ?_ ?_ <;>
      · rcases o.out with ho | ⟨lock, u, _, ho⟩ <;> rw [ho] <;> simp (config := { contextual := true })
    | prevote h r hash lr o =>
      refine same o.same ?_ ?_ <;>
      · rcases o.out with ho | ⟨lock, sv, _, _, _, ho⟩ <;> rw [ho] <;> simp (config := { contextual := true }) [walRec]
    | precommit h r hash lr o =>
      refine same o.same ?_ ?_ <;>
      · rcases o.out with ho | ⟨lock, sv, _, _, _, ho⟩ <;> rw [ho] <;> simp (config := { contextual := true }) [walRec]
    | commit hash o => exact commit_level o
    | brake r lr o =>
      refine same o.same ?_ ?_ <;>
      · rcases o.out with ho | ⟨lock, _, ho⟩ <;> rw [ho] <;> simp (config := { contextual := true }) [walRec]
    | stale h r lr hh hw => rw [hw]; exact ⟨.inl rfl, by simp [savedOf], Nat.le_refl _⟩
    | stop hw => rw [hw]; exact ⟨.inl rfl, by simp [savedOf], Nat.le_refl _⟩

/-- A start is at a height not below the calls made. -/
theorem start_level {addr : Address} {n : NodeSys T} {p : StartParams} {e : Env T} {cut : Option Nat} (h : OrdLe n.log)
    (ok : StartOk addr n (.start p e cut)) :
    ∃ k, (∀ x ∈ callsOf n.log, x.1 ≤ k) ∧ Level k (runArm .start e ⟨State.new addr p.initHeight p.interval p.list, []⟩).2 := by
  have hpow := new_power (T := T) addr p
  have o := start_out e (State.new addr p.initHeight p.interval p.list : State T)
  have hSh : (State.new addr p.initHeight p.interval p.list : State T).height = p.initHeight := rfl
  generalize hS : (State.new addr p.initHeight p.interval p.list : State T) = S at *
  generalize (runArm .start e ⟨S, []⟩).2 = w at *
  simp only [StartOk] at ok
  have still : ∀ k, callsOf w.log = [] → savedOf w.log = [] → k = w.st.height → Level k w := fun k h1 h2 h3 =>
    ⟨.inl h1, by rw [h2]; simp, by rw [h3]⟩
  have noCalls : (lastSaved n.log : Option (WalInfo T)) = none → callsOf n.log = [] := fun hn =>
    List.eq_nil_iff_forall_not_mem.2 fun x hx => by
      obtain ⟨v, hv, _⟩ := h.saved x hx
      unfold lastSaved at hn
      rw [hn] at hv; cases hv
  have found : ∀ (rec : WalInfo T) b, S.consensusPower = true → e.walLoad = some (some b) → decWalInfo b = .ok rec →
      ∀ x ∈ callsOf n.log, x.1 ≤ rec.height := by
    intro rec b hp hl hd
    rw [hpow] at hp
    rw [if_pos hp] at ok
    cases hls : (lastSaved n.log : Option (WalInfo T)) with
    | none =>
      simp only [hls] at ok
      rw [hl] at ok; cases ok
    | some v =>
      simp only [hls] at ok
      obtain ⟨_, b', h1, h2⟩ := ok
      rw [hl] at h1; cases h1
      rw [hd] at h2; cases h2
      intro x hx
      obtain ⟨v', hv', hb⟩ := h.saved x hx
      unfold lastSaved at hls
      rw [hls] at hv'; cases hv'; exact hb
  cases o with
  | idle hw hi =>
    subst hw
    refine ⟨S.height, fun x hx => ?_, still _ rfl rfl rfl⟩
    cases hp : S.consensusPower with
    | false =>
      rw [hpow] at hp
      rw [hp] at ok
      simp only [Bool.false_eq_true, if_false] at ok
      obtain ⟨v, hv, hb⟩ := h.saved x hx
      have := ok v (List.mem_of_getLast? hv)
      rw [hSh]; omega
    | true =>
      exfalso
      have hp' : (p.list.map Node.address).contains addr = true := by rw [← hpow]; exact hp
      rw [if_pos hp'] at ok
      cases hls : (lastSaved n.log : Option (WalInfo T)) with
      | none => rw [noCalls hls] at hx; cases hx
      | some v =>
        simp only [hls] at ok
        obtain ⟨_, b', h1, h2⟩ := ok
        rcases hi hp with (h3 | ⟨b, y, h3, h4⟩) | ⟨h3, _⟩
        · rw [h1] at h3; cases h3
        · rw [h1] at h3; cases h3; rw [h2] at h4; cases h4
        · rw [h1] at h3; cases h3
  | fresh hp hl hh hw =>
    have hn : (lastSaved n.log : Option (WalInfo T)) = none := by
      have hp' : (p.list.map Node.address).contains addr = true := by rw [← hpow]; exact hp
      rw [if_pos hp'] at ok
      cases hls : (lastSaved n.log : Option (WalInfo T)) with
      | none => rfl
      | some v =>
        simp only [hls] at ok
        obtain ⟨_, b', h1, h2⟩ := ok
        rw [hl] at h1; cases h1
    subst hw
    exact ⟨S.height, by rw [noCalls hn]; simp, still _ rfl rfl rfl⟩
  | noLeader b rec x hp hl hd hx hw =>
    subst hw
    exact ⟨rec.height, found rec b hp hl hd, still _ rfl rfl rfl⟩
  | noLock b rec pr hp hl hd hx hst hlk hw =>
    subst hw
    exact ⟨rec.height, found rec b hp hl hd, still _ rfl rfl (restored_pos S rec pr).1.symm⟩
  | commit b rec pr lock hp hl hd hx hst hlk o =>
    have := commit_level o
    rw [(restored_pos S rec pr).1] at this
    exact ⟨rec.height, found rec b hp hl hd, this⟩
  | brake b rec pr hp hl hd hx hst w1 o hw =>
    obtain ⟨r1, r2, r3, r4⟩ := restored_pos S rec pr
    have hob : obs w.log = obs w1.log ∧ w.st = w1.st := by
      rcases hw with hw | hw
      · rw [hw]; exact ⟨rfl, rfl⟩
      · rw [hw]; refine ⟨?_, rfl⟩; dsimp only; rw [obs_append]; simp [obs, obsOf, walTrig, stTrigger, releasedVote]
    refine ⟨rec.height, found rec b hp hl hd, .inl (calls_obs (by
      rw [hob.1]
      rcases o.out with ho | ⟨lk, _, ho⟩ <;> rw [ho] <;> simp)), fun v hv => ?_, ?_⟩
    · have hv := Single.mem_saved.1 hv
      rw [hob.1] at hv
      rcases o.out with ho | ⟨lk, _, ho⟩ <;> rw [ho] at hv
      · cases hv
      · simp at hv
        subst hv
        show rec.height ≤ (S.restored rec pr).height
        rw [r1]
    · rw [hob.2, o.same.height, r1]
  | resume b rec pr hp hl hd hx hst hsb hw =>
    subst hw
    exact ⟨rec.height, found rec b hp hl hd, still _ rfl rfl (restored_pos S rec pr).1.symm⟩

structure Low (n : NodeSys T) : Prop where
  ord : OrdLe n.log
  up : n.down = false → ∀ x ∈ callsOf n.log, x.1 ≤ n.st.height

theorem low_new (addr : Address) : Low (NodeSys.new addr : NodeSys T) :=
  ⟨⟨by simp [NodeSys.new, NodeSys.fresh, callsOf], by simp [NodeSys.new, NodeSys.fresh, callsOf]⟩, by simp [NodeSys.new, NodeSys.fresh]⟩

theorem low_step {addr : Address} {n n' : NodeSys T} {a : NAct T} (h : Low n) (ok : StartOk addr n a)
    (ha : n.act addr a = some n') : Low n' := by
  rcases act_log ha with ⟨h1, h2⟩ | ⟨i, e, cut, s, h1, h2, h3⟩
  · refine ⟨by rw [h1]; exact h.ord, fun hd => ?_⟩
    obtain ⟨g1, g2⟩ := h2 hd
    rw [h1, g2]; exact h.up g1
  · have fin : ∀ k, (∀ x ∈ callsOf n.log, x.1 ≤ k) → Level k (runArm i e ⟨s, []⟩).2 → Low n' := by
      intro k hk hl
      obtain ⟨g1, g2⟩ := level_step h.ord hk hl cut
      refine ⟨by rw [h1]; exact g1, fun hup => ?_⟩
      obtain ⟨e1, e2⟩ := h2 hup
      subst e1
      rw [h1, e2]; exact g2
    rcases h3 with ⟨hd, rfl, hi, x, n1, ht, rfl⟩ | ⟨hd, rfl, p, rfl, rfl⟩
    · exact fin _ (h.up hd) (arm_level hi)
    · obtain ⟨k, g1, g2⟩ := start_level h.ord ok
      exact fin k g1 g2

end Dlv
end Overlord
