import Verif.Model.Types
import Verif.Model.Map

/-!
# Authority lists, bitmaps and leaders

Models `/repo/src/utils/auth_manage.rs` and `/repo/src/utils/rand_proposer.rs` completely, with the
parts of the crates `bit_vec` (byte conversion) and `prime_tools` (`get_primes_less_than_x`) they
use. The generator `Pcg64Mcg` is an arbitrary list of 64-bit digits per seed.

All `u64`/`u32` additions and multiplications wrap (release profile); a debug build panics where
these wrap.
-/

namespace Overlord

/-- types.rs:398-402 `impl Ord for Node`: nodes are ordered by address only. -/
def Node.le (a b : Node) : Prop := bytesLe a.address b.address = true
instance : DecidableRel Node.le := fun a b => inferInstanceAs (Decidable (bytesLe a.address b.address = true))

/-- `authority_list.sort()` (auth_manage.rs:41, 150, 163): stable sort by address. -/
def sortNodes (l : List Node) : List Node := l.insertionSort Node.le

/-- auth_manage.rs:18-24 `AuthorityManage` -/
structure Authority where
  address : List Address
  proposeWeights : List Nat
  voteWeightMap : AMap Address Nat
  proposeWeightSum : Nat
  voteWeightSum : Nat
deriving DecidableEq, Repr

/-- auth_manage.rs:28-36 `AuthorityManage::new`; also the state after auth_manage.rs:126-132 `AuthorityManage::flush`. -/
def Authority.new : Authority :=
  { address := [], proposeWeights := [], voteWeightMap := [], proposeWeightSum := 0, voteWeightSum := 0 }

/-- One iteration of the loop of auth_manage.rs:39-54 `AuthorityManage::update`. -/
def Authority.push (a : Authority) (n : Node) : Authority :=
  { address := a.address ++ [n.address],
    proposeWeights := a.proposeWeights ++ [n.proposeWeight],
    voteWeightMap := a.voteWeightMap.insert n.address n.voteWeight,
    proposeWeightSum := (a.proposeWeightSum + n.proposeWeight) % U64,
    voteWeightSum := (a.voteWeightSum + n.voteWeight) % U64 }

/-- auth_manage.rs:39-54 `AuthorityManage::update` (flush, sort, push all). The caller's slice is sorted
too; callers that look at it afterwards use `sortNodes`. -/
def Authority.update (l : List Node) : Authority := (sortNodes l).foldl Authority.push Authority.new

/-- auth_manage.rs:57-61 `AuthorityManage::get_vote_weight` -/
def Authority.getVoteWeight (a : Authority) (addr : Address) : Except Err Nat :=
  match a.voteWeightMap.get? addr with
  | some w => .ok w
  | none => .error .invalidAddress

/-- Crate `prime_tools` 0.3: `get_primes_less_than_x(x)` is the increasing list of primes `< x`. -/
def isPrime (n : Nat) : Bool := decide (2 ≤ n) && (List.range n).all (fun d => decide (d < 2) || decide (n % d ≠ 0))
/-- See `isPrime`. -/
def primesLessThan (x : Nat) : List Nat := (List.range x).filter isPrime

/-- `*get_primes_less_than_x(len).last().unwrap_or(&1)` (auth_manage.rs:182). -/
def leaderStride (len : Nat) : Nat := (primesLessThan len).getLast?.getD 1

/-- auth_manage.rs:180-185 `rotation_leader_index`; `% 0` panics. -/
def rotationLeaderIndex (height round authorityLen : Nat) : Except Err Nat :=
  let len := authorityLen % U32
  if len = 0 then .error .panic
  else .ok (((height * leaderStride len + round) % U64) % len)

/-- rand_proposer.rs:9-11: the first digit below the bound; `none` if no digit of the list is. -/
def firstAccepted (bound : Nat) : List Nat → Option Nat
  | [] => none
  | d :: ds => if d ≥ bound then firstAccepted bound ds else some d

/-- rand_proposer.rs:13-19: the weighted choice for an accepted digit, from index `i` on with the
weights before it summing to `acc`; falls back to 0. -/
def pickIndex (tmp digit : Nat) : Nat → Nat → List Nat → Nat
  | _, _, [] => 0
  | i, acc, w :: ws =>
    let acc' := (acc + w) % U64
    if digit < (acc' * tmp) % U64 then i else pickIndex tmp digit (i + 1) acc' ws

/-- rand_proposer.rs:4-20 `get_random_proposer_index`. `digits` are the successive outputs of the
generator seeded with the seed; the loop waits for one below the bound, `Err.other` stands for a
list of digits too short for it to finish. Division by a zero weight sum panics. -/
def getRandomProposerIndex (digits : List Nat) (weights : List Nat) (weightSum : Nat) :
    Except Err Nat :=
  if weightSum = 0 then .error .panic
  else
    let tmp := U64MAX / weightSum
    match firstAccepted ((weightSum * tmp) % U64) digits with
    | none => .error .other
    | some d => .ok (pickIndex tmp d 0 0 weights)

/-- The cargo feature `random_leader` (auth_manage.rs:65, 171): off, or on with the generator as a
function from the seed to its digits. -/
inductive LeaderMode where
  | rotation
  | random (rng : Nat → List Nat)

/-- auth_manage.rs:64-81 `AuthorityManage::get_proposer` -/
def Authority.getProposer (mode : LeaderMode) (a : Authority) (height round : Nat) :
    Except Err Address := do
  let index ← match mode with
    | .random rng => getRandomProposerIndex (rng ((height + round) % U64)) a.proposeWeights a.proposeWeightSum
    | .rotation => rotationLeaderIndex height round a.address.length
  match a.address[index]? with
  | some addr => .ok addr
  | none => .error .other

/-- Crate `bit_vec`: the 8 bits of a byte, most significant first (`BitVec::from_bytes`). -/
def bitsOfByte (b : UInt8) : List Bool := (List.range 8).map (fun i => b.toNat.testBit (7 - i))
/-- `BitVec::from_bytes` as the list of bits in iteration order. -/
def bitsOfBytes (bs : Bytes) : List Bool := bs.flatMap bitsOfByte
/-- Crate `bit_vec`: one byte of `to_bytes`, missing bits are 0. -/
def byteOfBits (l : List Bool) : UInt8 :=
  UInt8.ofNat ((List.range 8).foldl (fun acc i => 2 * acc + (if l.getD i false then 1 else 0)) 0)
/-- `BitVec::to_bytes`: ⌈len/8⌉ bytes, first bit most significant, padded with zeros. -/
def bytesOfBits (l : List Bool) : Bytes :=
  (List.range ((l.length + 7) / 8)).map (fun i => byteOfBits ((l.drop (8 * i)).take 8))

/-- The loop of auth_manage.rs:84-102 `AuthorityManage::is_above_threshold`: the accumulated weight (u64,
wrapping) of the addresses whose bit is set; error if one has no weight. -/
def Authority.bitmapWeight (a : Authority) : Nat → List (Bool × Address) → Except Err Nat
  | acc, [] => .ok acc
  | acc, (b, addr) :: l =>
    if b then
      match a.voteWeightMap.get? addr with
      | some w => a.bitmapWeight ((acc + w) % U64) l
      | none => .error .other
    else a.bitmapWeight acc l

/-- auth_manage.rs:84-102 `AuthorityManage::is_above_threshold` -/
def Authority.isAboveThreshold (a : Authority) (bitmap : Bytes) : Except Err Bool := do
  let acc ← a.bitmapWeight 0 ((bitsOfBytes bitmap).zip a.address)
  return decide ((acc * 3) % U64 > (a.voteWeightSum * 2) % U64)

/-- auth_manage.rs:104-113 `AuthorityManage::get_voters` -/
def Authority.getVoters (a : Authority) (bitmap : Bytes) : Except Err (List Address) :=
  .ok ((((bitsOfBytes bitmap).zip a.address).filter (fun p => p.1)).map Prod.snd)

/-- auth_manage.rs:116-118 `AuthorityManage::contains` -/
def Authority.contains (a : Authority) (addr : Address) : Bool := a.address.contains addr

/-- auth_manage.rs:135-137 `AuthorityManage::len` -/
def Authority.len (a : Authority) : Nat := a.address.length

/-- auth_manage.rs:146-159 `extract_voters` -/
def extractVoters (l : List Node) (bitmap : Bytes) : Except Err (List Address) :=
  .ok ((((bitsOfBytes bitmap).zip (sortNodes l)).filter (fun p => p.1)).map (fun p => p.2.address))

/-- auth_manage.rs:162-178 `get_leader`. The weight sum is a `u32` (the type of `propose_weight`). An index
out of range panics. -/
def getLeader (mode : LeaderMode) (height round : Nat) (l : List Node) : Except Err Address := do
  let s := sortNodes l
  let weightSum := s.foldl (fun acc n => (acc + n.proposeWeight) % U32) 0
  let index ← match mode with
    | .random rng => getRandomProposerIndex (rng ((height + round) % U64)) (s.map Node.proposeWeight) weightSum
    | .rotation => rotationLeaderIndex height round s.length
  match s[index]? with
  | some n => .ok n.address
  | none => .error .panic

/-- types.rs:221-225 `impl Ord for SignedVote`: signed votes are ordered by voter only. -/
def SignedVote.le (a b : SignedVote) : Prop := bytesLe a.voter b.voter = true
instance : DecidableRel SignedVote.le := fun a b => inferInstanceAs (Decidable (bytesLe a.voter b.voter = true))

/-- `votes.sort()` (process.rs:1259). -/
def sortVotes (l : List SignedVote) : List SignedVote := l.insertionSort SignedVote.le

/-- process.rs:1270-1276, part of `generate_qc`: the bitmap of a set of voters over the authority
list. -/
def Authority.bitmapOf (a : Authority) (voters : List Address) : Bytes :=
  bytesOfBits (a.address.map (fun addr => decide (addr ∈ voters)))

end Overlord
