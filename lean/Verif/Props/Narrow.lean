import Verif.Props.Binary
import Verif.Props.PoolFields
/-!
How numbers on the wire are read (C53) and which fields have presence (C54).
-/
set_option autoImplicit false
namespace Verif.Props
open Verif.Wire Verif.Dyn Verif.Pool

/-! ### C53 -/

/-- `bs` is a varint, of minimal length or not, that stands for `n`: seven bits per byte,
least significant first, the top bit set on all bytes but the last. -/
inductive Varint : Bytes → Nat → Prop
  | last (b : UInt8) : b.toNat < 128 → Varint [b] b.toNat
  | more (b : UInt8) (r : Bytes) (n : Nat) : 128 ≤ b.toNat → Varint r n →
      Varint (b :: r) (b.toNat - 128 + 128 * n)

/-- What a field of each varint kind reads from the number `n`: integers keep the low bits in
two's complement, booleans ask whether `n` is zero, `sint` undoes the zigzag. -/
def Reads (n : Nat) : Kind → Value → Prop
  | .bool, .bool b => b = true ↔ n ≠ 0
  | .int32, .i32 v | .enum _, .enum v => v.toInt = Int.bmod n (2 ^ 32)
  | .int64, .i64 v => v.toInt = Int.bmod n (2 ^ 64)
  | .uint32, .u32 v => v.toNat = n % 2 ^ 32
  | .uint64, .u64 v => v.toNat = n
  | .sint32, .i32 v => (n % 2 = 0 ∧ v.toInt = (n % 2 ^ 32 : Nat) / 2) ∨
      (n % 2 = 1 ∧ v.toInt = -((n % 2 ^ 32 : Nat) + 1) / 2)
  | .sint64, .i64 v => (n % 2 = 0 ∧ v.toInt = n / 2) ∨ (n % 2 = 1 ∧ v.toInt = -(n + 1) / 2)
  | _, _ => False

theorem decodeVarintAux_of {bs : Bytes} {n : Nat} (h : Varint bs n) (t : Bytes) :
    ∀ (k acc : Nat), k + bs.length ≤ 10 → acc + n * 2 ^ (7 * k) < 2 ^ 64 →
      decodeVarintAux k acc (bs ++ t) = .ok (acc + n * 2 ^ (7 * k), t) := by
  induction h with
  | last b hb =>
    intro k acc hk hn
    simp only [List.singleton_append, decodeVarintAux, hb, if_true]
    rw [if_neg]
    rintro ⟨rfl, h2⟩
    have : 2 * 2 ^ 63 ≤ b.toNat * 2 ^ 63 := Nat.mul_le_mul_right _ h2
    simp only [Nat.reduceMul] at hn this
    omega
  | more b r n hb hr ih =>
    intro k acc hk hn
    have hl : 0 < r.length := by cases hr <;> simp
    simp only [List.length_cons] at hk
    simp only [List.cons_append, decodeVarintAux]
    rw [if_neg (by omega), if_neg (by omega)]
    have e : (b.toNat - 128 + 128 * n) * 2 ^ (7 * k) =
        (b.toNat - 128) * 2 ^ (7 * k) + n * 2 ^ (7 * (k + 1)) := by
      rw [Nat.add_mul, Nat.mul_comm 128 n, Nat.mul_assoc, Nat.mul_add, Nat.pow_add]
      congr 2
      rw [Nat.mul_comm]
    rw [e] at hn ⊢
    rw [ih (k + 1) _ (by omega) (by omega)]
    simp [Nat.add_assoc]

theorem decodeVarint_of {bs : Bytes} {n : Nat} (h : Varint bs n) (hl : bs.length ≤ 10)
    (hn : n < 2 ^ 64) (t : Bytes) : decodeVarint (bs ++ t) = .ok (n, t) := by
  have := decodeVarintAux_of h t 0 0 (by omega) (by simpa using hn)
  simpa [decodeVarint] using this

theorem unzigzag_toInt {w : Nat} (hw : 1 < w) (u : BitVec w) :
    ((u >>> 1) ^^^ (-(u &&& 1))).toInt =
      if u.toNat % 2 = 0 then ((u.toNat / 2 : Nat) : Int) else -((u.toNat / 2 : Nat) : Int) - 1 := by
  have hone : (1#w).toNat = 1 := by
    rw [BitVec.toNat_ofNat, Nat.mod_eq_of_lt (Nat.one_lt_two_pow (by omega))]
  have h1 : (u &&& 1#w).toNat = u.toNat % 2 := by
    rw [BitVec.toNat_and, hone, Nat.and_one_is_mod]
  have h2 : (u >>> 1).toNat = u.toNat / 2 := by
    simp [BitVec.toNat_ushiftRight, Nat.shiftRight_eq_div_pow]
  have hlt := u.isLt
  change ((u >>> 1) ^^^ (-(u &&& 1#w))).toInt = _
  split
  · rename_i he
    have : u &&& 1#w = 0#w := BitVec.eq_of_toNat_eq (by rw [h1, he]; simp)
    rw [this, BitVec.neg_zero, BitVec.xor_zero, BitVec.toInt_eq_toNat_cond, h2, if_pos (by omega)]
  · rename_i he
    have : u &&& 1#w = 1#w := BitVec.eq_of_toNat_eq (by rw [h1, hone]; omega)
    rw [this, BitVec.neg_one_eq_allOnes, BitVec.xor_allOnes, BitVec.toInt_eq_toNat_cond,
      BitVec.toNat_not, h2, if_neg (by omega)]
    omega

theorem unzigzag32_toInt (n : Nat) :
    (n % 2 = 0 ∧ (unzigzag32 (BitVec.ofNat 32 n)).toInt = (n % 2 ^ 32 : Nat) / 2) ∨
      (n % 2 = 1 ∧ (unzigzag32 (BitVec.ofNat 32 n)).toInt = -((n % 2 ^ 32 : Nat) + 1) / 2) := by
  have := unzigzag_toInt (by omega) (BitVec.ofNat 32 n)
  rw [BitVec.toNat_ofNat] at this
  unfold unzigzag32
  rw [this]
  split <;> omega

theorem unzigzag64_toInt {n : Nat} (hn : n < 2 ^ 64) :
    (n % 2 = 0 ∧ (unzigzag64 (BitVec.ofNat 64 n)).toInt = n / 2) ∨
      (n % 2 = 1 ∧ (unzigzag64 (BitVec.ofNat 64 n)).toInt = -(n + 1) / 2) := by
  have := unzigzag_toInt (by omega) (BitVec.ofNat 64 n)
  rw [BitVec.toNat_ofNat, Nat.mod_eq_of_lt hn] at this
  unfold unzigzag64
  rw [this]
  split <;> omega

/-- A kind that travels as a varint reads every varint. -/
theorem scalarDec_varint {k : Kind} (hk : k.wireType = .varint) {bs : Bytes} {n : Nat}
    (h : Varint bs n) (hl : bs.length ≤ 10) (hn : n < 2 ^ 64) :
    ∃ v, Reads n k v ∧ scalarOk k v = true ∧ ∀ t, scalarDec k .varint (bs ++ t) = .ok (v, t) := by
  have hd := decodeVarint_of h hl hn
  have h64 : (BitVec.ofNat 64 n).toNat = n := by
    rw [BitVec.toNat_ofNat]
    exact Nat.mod_eq_of_lt hn
  have hr : ∀ (conv : Nat → Value), scalarDec k .varint = (fun buf => match decodeVarint buf with
      | .error e => .error e
      | .ok (n, r) => .ok (conv n, r)) → ∀ t, scalarDec k .varint (bs ++ t) = .ok (conv n, t) := by
    intro conv hc t
    rw [hc]
    simp only [hd]
  cases k <;> first
    | cases hk
    | skip
  · exact ⟨.i32 (BitVec.ofNat 32 n), by simp only [Reads, BitVec.toInt_ofNat'], rfl, hr (fun n => .i32 (BitVec.ofNat 32 n)) rfl⟩
  · exact ⟨.i64 (BitVec.ofNat 64 n), by simp only [Reads, BitVec.toInt_ofNat'], rfl, hr (fun n => .i64 (BitVec.ofNat 64 n)) rfl⟩
  · exact ⟨.u32 (BitVec.ofNat 32 n), BitVec.toNat_ofNat _ _, rfl, hr (fun n => .u32 (BitVec.ofNat 32 n)) rfl⟩
  · exact ⟨.u64 (BitVec.ofNat 64 n), h64, rfl, hr (fun n => .u64 (BitVec.ofNat 64 n)) rfl⟩
  · exact ⟨.i32 (unzigzag32 (BitVec.ofNat 32 n)), unzigzag32_toInt n, rfl, hr (fun n => .i32 (unzigzag32 (BitVec.ofNat 32 n))) rfl⟩
  · exact ⟨.i64 (unzigzag64 (BitVec.ofNat 64 n)), unzigzag64_toInt hn, rfl, hr (fun n => .i64 (unzigzag64 (BitVec.ofNat 64 n))) rfl⟩
  · exact ⟨.bool (n != 0), by simp [Reads], rfl, hr (fun n => .bool (n != 0)) rfl⟩
  · exact ⟨.enum (BitVec.ofNat 32 n), by simp only [Reads, BitVec.toInt_ofNat'], rfl, hr (fun n => .enum (BitVec.ofNat 32 n)) rfl⟩

/-- **C53.** Merging one occurrence of a singular varint field reads the number on the wire as
the field's type prescribes, for every way of writing the number. -/
theorem C53_varint {S : Schema} (hS : S.wf = true) {m : DynMsg} (hm : confMsg S m = true)
    {f : FieldDesc} (hk : Known S m.desc f) (hc : f.card ≠ .repeated)
    (hw : f.kind.wireType = .varint) {bs : Bytes} {n : Nat} (hb : Varint bs n)
    (hl : bs.length ≤ 10) (hn : n < 2 ^ 64) :
    ∃ v m', Reads n f.kind v ∧ merge S m (encodeKey f.number .varint ++ bs) = .ok m' ∧
      m'.getField S f = some v ∧ Untouched S f m m' := by
  obtain ⟨v, hv, _, hd⟩ := scalarDec_varint hw hb hl hn
  obtain ⟨md, hC⟩ := confMsg_iff.1 hm
  have hs : f.kind.isMessage = false := by
    cases h : f.kind <;> rw [h] at hw <;> first | rfl | cases hw
  obtain ⟨cur, hcur, hcc⟩ := get_conf hS hC hk
  have hso : scalarOk f.kind cur = true := scalarOk_of_confVal hs hc hcc
  have hst : VSteps S recursionLimit f cur (encodeKey f.number .varint ++ bs ++ []) v := by
    refine VSteps.cons (show WireType.varint ≠ .endGroup by decide) ?_ (VSteps.nil _)
    intro t
    have hval : cur.isValid f.kind = true := by
      cases hkk : f.kind <;> cases cur <;> simp [hkk, scalarOk, Value.isValid] at hso ⊢
    have : valueMerge S recursionLimit (nestedAt S recursionLimit) f cur .varint (bs ++ t) =
        scalarDec f.kind .varint (bs ++ t) := by
      cases cur with
      | msg i fs => cases hkk : f.kind <;> simp [hkk, Kind.isMessage, Value.isValid] at hs hval
      | list vs => cases hkk : f.kind <;> simp [Value.isValid] at hval
      | map vs => cases hkk : f.kind <;> simp [Value.isValid] at hval
      | _ => simp only [valueMerge, singularMerge, hval, if_true]
    rw [this, hd]
  simp only [List.append_nil] at hst
  obtain ⟨m', h1, h2⟩ := run_known hS hC hk hcur (by simp [encodeKey_ne_nil]) hst
  refine ⟨v, m', hv, h1, ?_, placed_untouched hS hC.desc h2⟩
  unfold DynMsg.getField FieldSet.get; rw [h2.get]

example : merge Ex.schema (DynMsg.empty 0) (encodeKey 1 .varint ++ [0x85, 0x80, 0x80, 0x80, 0x10]) =
    .ok ⟨0, [(1, .val (.i32 5))]⟩ := rfl
example : Varint [0x85, 0x80, 0x80, 0x80, 0x10] 4294967301 ∧ Known Ex.schema 0 Ex.fA ∧
    Ex.fA.kind.wireType = .varint :=
  ⟨.more _ _ 33554432 (by decide) (.more _ _ 262144 (by decide) (.more _ _ 2048 (by decide)
    (.more _ _ 16 (by decide) (.last 0x10 (by decide))))), .inl rfl, rfl⟩

/-! ### C54 -/

section
variable {env : Env} (hsr : SearchOk env.search) {acc : List FileP} {p : Pool}
include hsr

/-- **C54, what holds.** A repeated field has no presence, and any other field has it exactly if
it is a message, a oneof member, marked `optional` in proto3 or declared in a proto2 file —
provided a repeated field is neither in a oneof nor marked as proto3 `optional` (`C54_false`). -/
theorem C54_presence_partial (h : Hist env acc p) {k i : Nat} {md : MsgD} {d : FieldD}
    (hk : p.messages[k]? = some md) (hi : md.fields[i]? = some d) :
    ∃ x y fd, Stands acc p d.id (.field x) (.field y) ∧ p.files[d.id.file]? = some fd ∧
      (x.label ≠ .repeated → (d.presence = true ↔ (∃ j, d.kind = .message j) ∨
        (∃ o, d.oneof = some o) ∨ x.proto3Optional = true ∨ fd.syn = .proto2)) ∧
      (x.label = .repeated → d.oneof = none → x.proto3Optional = false → d.presence = false) := by
  obtain ⟨x, y, fd, h1, h2, _, h3⟩ := (h.desc hsr).field_is hk hi
  have ho : x.oneofIndex.isSome = d.oneof.isSome := by rw [← h3.oneof]; simp
  refine ⟨x, y, fd, h1, h2, fun hl => ?_, fun hl hn ho3 => ?_⟩
  · rw [h3.presence]
    have : (x.label != .repeated) = true := by simpa using hl
    have hm : (match some (d.kind, d.group) with
        | some (.message _, _) => true
        | _ => false) = true ↔ ∃ j, d.kind = .message j := by
      cases d.kind <;> simp
    simp only [supportsPresence, this, Bool.true_and, Bool.or_eq_true, decide_eq_true_eq, ho]
    rw [Option.isSome_iff_exists]
    grind
  · rw [h3.presence]
    simp [supportsPresence, hl, ho, hn, ho3]
end

/-- `message M { oneof o { repeated int32 a = 1; } }` (not valid in a `.proto` file). -/
def fileRepOneof : FileP where
  name := nm "r.proto"
  syn := some (nm "proto3")
  messages := [{ name := nm "M", oneofs := [{ name := nm "o" }], fields := [
    { name := nm "a", number := 1, label := .repeated, ty := .int32, oneofIndex := some 0 }] }]

/-- **C54 fails**: a repeated member of a oneof is accepted and has presence. -/
theorem C54_false : ∃ acc p, Hist env0 acc p ∧
    (p.messages.map (fun m => m.fields.map fun f => (f.card, f.presence)) ==
      [[(.repeated, true)]]) = true :=
  run_ex [[fileRepOneof]] _ (by decide +kernel)

end Verif.Props
