import Verif.Wire.Model
/-
Byte representation of the numbers and strings that travel on the sockets.
-/
namespace Verif.Wire

/-- Little-endian bytes, least significant first (numpy `tobytes` on the supported platforms). -/
def le : Nat → Nat → List UInt8
  | 0, _ => []
  | k + 1, n => UInt8.ofNat (n % 256) :: le k (n / 256)

/-- Inverse of `le`. -/
def unle : List UInt8 → Nat
  | [] => 0
  | b :: bs => b.toNat + 256 * unle bs

/-- A float64, identified with its bit pattern: the code only copies the eight bytes. -/
abbrev F64 := BitVec 64

/-- `np.float64(x).tobytes()`. -/
def encF64 (x : F64) : List UInt8 := le 8 x.toNat

/-- `np.frombuffer(.., np.float64)[0]`. -/
def decF64 (bs : List UInt8) : F64 := BitVec.ofNat 64 (unle bs)

/-- `array.tobytes()` of a contiguous float64 array, in C order. -/
def encF64s (xs : List F64) : List UInt8 := xs.flatMap encF64

/-- `np.frombuffer(.., np.float64, count=k)`. -/
def decF64s : Nat → List UInt8 → List F64
  | 0, _ => []
  | k + 1, bs => decF64 (bs.take 8) :: decF64s k (bs.drop 8)

/-- `np.int32(i).tobytes()`. -/
def encI32 (i : Int) : List UInt8 := le 4 (BitVec.ofInt 32 i).toNat

/-- `np.frombuffer(.., np.int32)[0]`. -/
def decI32 (bs : List UInt8) : Int := (BitVec.ofNat 32 (unle bs)).toInt

/-- `str.encode()`, `str.encode("utf-8")`. -/
def utf8 (s : String) : List UInt8 := s.toUTF8.data.toList

/-- `bytes.decode("utf-8")`; `none` is `UnicodeDecodeError`. -/
def utf8? (bs : List UInt8) : Option String := String.fromUTF8? ⟨bs.toArray⟩

/-- `Message` (sockets.py:40-44, driver.py:51-55): upper case, padded with spaces to 12 characters. -/
def message (s : String) : List UInt8 :=
  let u := s.toUpper
  utf8 u ++ List.replicate (12 - u.length) 32

theorem le_length (k n : Nat) : (le k n).length = k := by
  induction k generalizing n with
  | zero => rfl
  | succ k ih => simp [le, ih]

theorem unle_le (k n : Nat) : unle (le k n) = n % 256 ^ k := by
  induction k generalizing n with
  | zero => simp [le, unle, Nat.mod_one]
  | succ k ih =>
    simp only [le, unle, ih]
    have h1 : (UInt8.ofNat (n % 256)).toNat = n % 256 := by
      simp
    rw [h1, Nat.pow_succ, Nat.mul_comm (256 ^ k) 256, Nat.mod_mul]

theorem encF64_length (x : F64) : (encF64 x).length = 8 := le_length _ _

theorem decF64_encF64 (x : F64) : decF64 (encF64 x) = x := by
  unfold decF64 encF64
  rw [unle_le]
  apply BitVec.eq_of_toNat_eq
  have := x.isLt
  simp
  omega

theorem encF64s_length (xs : List F64) : (encF64s xs).length = 8 * xs.length := by
  induction xs with
  | nil => rfl
  | cons x xs ih =>
    have : encF64s (x :: xs) = encF64 x ++ encF64s xs := rfl
    rw [this, List.length_append, encF64_length, ih]; simp; omega

theorem decF64s_encF64s_append (xs : List F64) (rest : List UInt8) :
    decF64s xs.length (encF64s xs ++ rest) = xs := by
  induction xs with
  | nil => rfl
  | cons x xs ih =>
    have : encF64s (x :: xs) = encF64 x ++ encF64s xs := rfl
    rw [this, List.length_cons, decF64s, List.append_assoc]
    rw [List.take_append_of_le_length (by rw [encF64_length]; omega),
      List.take_of_length_le (by rw [encF64_length]; omega),
      List.drop_append_of_le_length (by rw [encF64_length]; omega),
      List.drop_of_length_le (by rw [encF64_length]; omega), decF64_encF64]
    simp [ih]

theorem decF64s_encF64s (xs : List F64) : decF64s xs.length (encF64s xs) = xs := by
  simpa using decF64s_encF64s_append xs []

theorem encI32_length (i : Int) : (encI32 i).length = 4 := le_length _ _

theorem decI32_encI32 (i : Int) (h1 : -2 ^ 31 ≤ i) (h2 : i < 2 ^ 31) : decI32 (encI32 i) = i := by
  unfold decI32 encI32
  rw [unle_le]
  have : (BitVec.ofNat 32 ((BitVec.ofInt 32 i).toNat % 256 ^ 4)) = BitVec.ofInt 32 i := by
    apply BitVec.eq_of_toNat_eq
    simp
    omega
  rw [this, BitVec.toInt_ofInt, Int.bmod_def]
  norm_cast
  omega

theorem utf8?_utf8 (s : String) : utf8? (utf8 s) = some s := by
  unfold utf8? utf8 String.fromUTF8?
  have h : (⟨s.toUTF8.data.toList.toArray⟩ : ByteArray) = s.toByteArray := by simp
  rw [h]
  split
  · rfl
  · rename_i hv; exact absurd s.isValidUTF8 hv

/-- All characters are ASCII. -/
def Ascii (s : String) : Prop := ∀ c ∈ s.toList, c.val ≤ 0x7f

theorem utf8_eq (s : String) : utf8 s = s.toList.flatMap String.utf8EncodeChar := by
  unfold utf8
  rw [String.toUTF8_eq_toByteArray, ← String.utf8Encode_toList]
  simp [List.utf8Encode]

theorem size_one_iff (c : Char) : (String.utf8EncodeChar c).length = 1 ↔ c.val ≤ 0x7f := by
  rw [String.length_utf8EncodeChar]
  unfold Char.utf8Size
  by_cases h : c.val ≤ 0x7f
  · rw [if_pos (by simpa using h)]; simp [h]
  · rw [if_neg (by simpa using h)]
    simp only [h, iff_false]
    split
    · omega
    · split <;> omega

theorem utf8_length_le (s : String) : s.length ≤ (utf8 s).length := by
  rw [utf8_eq, ← String.length_toList]
  induction s.toList with
  | nil => simp
  | cons c l ih =>
    have : 0 < (String.utf8EncodeChar c).length := by
      rw [String.length_utf8EncodeChar]; exact Char.utf8Size_pos c
    rw [List.flatMap_cons, List.length_append, List.length_cons]; omega

theorem utf8_length_iff (s : String) : (utf8 s).length = s.length ↔ Ascii s := by
  unfold Ascii
  rw [utf8_eq, ← String.length_toList]
  generalize s.toList = l
  have hle : ∀ l : List Char, l.length ≤ (l.flatMap String.utf8EncodeChar).length := by
    intro l
    induction l with
    | nil => simp
    | cons c l ih =>
      have : 0 < (String.utf8EncodeChar c).length := by
        rw [String.length_utf8EncodeChar]; exact Char.utf8Size_pos c
      rw [List.flatMap_cons, List.length_append, List.length_cons]; omega
  induction l with
  | nil => simp
  | cons c l ih =>
    rw [List.flatMap_cons, List.length_append, List.length_cons]
    have h1 := hle l
    have : 0 < (String.utf8EncodeChar c).length := by
      rw [String.length_utf8EncodeChar]; exact Char.utf8Size_pos c
    constructor
    · intro h
      have hc : (String.utf8EncodeChar c).length = 1 := by omega
      have hl := ih.1 (by omega)
      intro c' hc'
      rcases List.mem_cons.1 hc' with rfl | h
      · exact (size_one_iff c').1 hc
      · exact hl c' h
    · intro h
      have h2 := ih.2 (fun c' hc' => h c' (by simp [hc']))
      have h3 := (size_one_iff c).2 (h c (by simp))
      omega

end Verif.Wire
