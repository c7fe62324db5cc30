import Verif.Props.Join
import Verif.Lemmas.Runes
/-
C79 keys as Go strings.
-/
namespace Verif

/-! ## Decoding -/

theorem decode_split {bs : List UInt8} {c : Char} (h : ByteArray.utf8DecodeChar? bs.toByteArray 0 = some c) :
    ∃ r, bs = String.utf8EncodeChar c ++ r := by
  obtain ⟨l, hl⟩ := ByteArray.exists_of_utf8DecodeChar?_eq_some h
  refine ⟨l.data.toList, ?_⟩
  have := congrArg (fun b : ByteArray => b.data.toList) hl
  simpa using this

theorem runesFuel_enough (bs : List UInt8) : ∀ n m, bs.length ≤ n → bs.length ≤ m → runesFuel n bs = runesFuel m bs := by
  intro n
  induction n generalizing bs with
  | zero =>
    intro m hn _
    have : bs = [] := List.length_eq_zero_iff.mp (by omega)
    subst this
    cases m <;> rfl
  | succ n ih =>
    intro m hn hm
    cases bs with
    | nil => cases m <;> rfl
    | cons b bs =>
      cases m with
      | zero => simp at hm
      | succ m =>
        simp only [runesFuel]
        simp only [List.length_cons] at hn hm
        cases h : ByteArray.utf8DecodeChar? (b :: bs).toByteArray 0 with
        | none => simp only; rw [ih bs m (by omega) (by omega)]
        | some c =>
          simp only
          have := Char.utf8Size_pos c
          rw [ih ((b :: bs).drop c.utf8Size) m (by simp; omega) (by simp; omega)]

theorem runes_nil : runes [] = [] := rfl

theorem runes_cons (b : UInt8) (bs : List UInt8) : runes (b :: bs) =
    match ByteArray.utf8DecodeChar? (b :: bs).toByteArray 0 with
    | some c => c :: runes ((b :: bs).drop c.utf8Size)
    | none => '�' :: runes bs := by
  unfold runes
  rw [List.length_cons, runesFuel]
  cases h : ByteArray.utf8DecodeChar? (b :: bs).toByteArray 0 with
  | none => rfl
  | some c =>
    simp only
    have := Char.utf8Size_pos c
    rw [runesFuel_enough _ _ ((b :: bs).drop c.utf8Size).length (by simp; omega) (by omega)]

/-- What stands behind valid text is decoded by itself. -/
theorem runes_append (a : Str) (bs : List UInt8) : runes (utf8 a ++ bs) = a ++ runes bs := by
  induction a with
  | nil => rfl
  | cons c a ih =>
    rw [utf8_cons, List.append_assoc]
    cases hb : String.utf8EncodeChar c ++ (utf8 a ++ bs) with
    | nil =>
      have h1 := String.length_utf8EncodeChar c
      have h2 := Char.utf8Size_pos c
      rw [(List.append_eq_nil_iff.mp hb).1] at h1
      simp at h1; omega
    | cons x xs =>
      rw [runes_cons]
      have h2 : ByteArray.utf8DecodeChar? (x :: xs).toByteArray 0 = some c := by
        rw [← hb, List.toByteArray_append]
        exact ByteArray.utf8DecodeChar?_utf8EncodeChar_append
      rw [h2]
      simp only
      rw [← hb, List.drop_left' (String.length_utf8EncodeChar c), ih]
      rfl

/-- A byte above 127 in front of valid text is no character. -/
theorem decode_bad {b : UInt8} (hb : 128 ≤ b.toNat) {p : Str} (hp : p ≠ []) : ByteArray.utf8DecodeChar? (b :: utf8 p).toByteArray 0 = none := by
  cases h : ByteArray.utf8DecodeChar? (b :: utf8 p).toByteArray 0 with
  | none => rfl
  | some c =>
    exfalso
    obtain ⟨r, hr⟩ := decode_split h
    cases p with
    | nil => exact hp rfl
    | cons a p =>
      have la : 0 < (String.utf8EncodeChar a).length := by rw [String.length_utf8EncodeChar]; exact a.utf8Size_pos
      by_cases h1 : c.utf8Size = 1
      · rw [String.utf8EncodeChar_eq_singleton h1] at hr
        simp only [List.cons_append, List.cons.injEq] at hr
        have hc := Char.utf8Size_eq_one_iff.mp h1
        rw [hr.1] at hb
        have h3 : c.val.toNat ≤ 127 := hc
        rw [UInt32.toNat_toUInt8] at hb
        omega
      · have lc : 1 < (String.utf8EncodeChar c).length := by
          rw [String.length_utf8EncodeChar]; have := c.utf8Size_pos; omega
        have e1 : (b :: utf8 (a :: p))[1]? = some ((String.utf8EncodeChar c)[1]) := by
          rw [hr, List.getElem?_append_left lc]; simp
        have e2 : (b :: utf8 (a :: p))[1]? = some ((String.utf8EncodeChar a)[0]) := by
          rw [utf8_cons, List.getElem?_cons_succ, List.getElem?_append_left la]; simp
        rw [e1] at e2
        have e3 : (String.utf8EncodeChar c)[1] = (String.utf8EncodeChar a)[0] := by simpa using e2
        have f1 : ((String.utf8EncodeChar c)[1]).IsUTF8FirstByte := by
          rw [e3]; exact UInt8.isUTF8FirstByte_getElem_utf8EncodeChar.mpr rfl
        have := UInt8.isUTF8FirstByte_getElem_utf8EncodeChar.mp f1
        omega

theorem ofNat_small {n : Nat} (h : n < 128) : (Char.ofNat n).toNat = n := by
  have hv : n.isValidChar := by unfold Nat.isValidChar; omega
  unfold Char.ofNat
  rw [dif_pos hv]
  rfl

theorem runes_single (b : UInt8) (hb : b.toNat < 128) (bs : List UInt8) : runes (b :: bs) = Char.ofNat b.toNat :: runes bs := by
  have hv : (Char.ofNat b.toNat).toNat = b.toNat := ofNat_small hb
  have e : utf8 [Char.ofNat b.toNat] = [b] := by
    rw [utf8_single_ascii (by rw [hv]; exact hb), hv]; simp
  have := runes_append [Char.ofNat b.toNat] bs
  rw [e] at this
  simpa using this

/-! ## C79 -/

/-- A Go string is valid when it is the encoding of some text. -/
def ValidUtf8 (bs : List UInt8) : Prop := ∃ s : Str, bs = utf8 s

/-- **C79** The delimiters that prefixes work with: the key that a trie with a prefix joins is the prefix, the delimiter and the path exactly for ASCII
delimiters — and for U+FFFD. -/
theorem C79_delim (d : Char) (pre path : Str) (h1 : pre ≠ []) (h2 : path ≠ []) :
    runes (joinBytes d [utf8 pre, utf8 path]) = pre ++ d :: path ↔ d.toNat < 128 ∨ d = '�' := by
  have e0 : joinBytes d [utf8 pre, utf8 path] = utf8 pre ++ UInt8.ofNat d.toNat :: utf8 path := by
    have n1 : utf8 pre ≠ [] := fun h => h1 (utf8_eq_nil.mp h)
    have n2 : utf8 path ≠ [] := fun h => h2 (utf8_eq_nil.mp h)
    simp [joinBytes, joinRestBytes, n1, n2]
  rw [e0, runes_append, List.append_cancel_left_eq]
  by_cases hd : (UInt8.ofNat d.toNat).toNat < 128
  · rw [runes_single _ hd, runes_utf8]
    simp only [List.cons.injEq, and_true]
    have hv : (Char.ofNat (UInt8.ofNat d.toNat).toNat).toNat = (UInt8.ofNat d.toNat).toNat := ofNat_small hd
    constructor
    · intro h; left; rw [← h, hv]; exact hd
    · rintro (h | h)
      · have : (UInt8.ofNat d.toNat).toNat = d.toNat := by rw [UInt8.toNat_ofNat']; omega
        rw [this]; exact Char.ofNat_toNat d
      · subst h; exact absurd hd (by decide)
  · rw [runes_cons, decode_bad (by omega) h2]
    simp only [runes_utf8, List.cons.injEq, and_true]
    constructor
    · intro h; exact .inr h.symm
    · rintro (h | h)
      · exfalso; apply hd; rw [UInt8.toNat_ofNat']; omega
      · exact h.symm

theorem encode_blank : String.utf8EncodeChar ' ' = [32] := by decide

/-- Byte 32 occurs only as a blank. -/
theorem blank_only {c : Char} (h : (32 : UInt8) ∈ String.utf8EncodeChar c) : c = ' ' := by
  obtain ⟨i, hi, e⟩ := List.mem_iff_getElem.mp h
  have f : ((String.utf8EncodeChar c)[i]).IsUTF8FirstByte := by rw [e]; decide
  have i0 := UInt8.isUTF8FirstByte_getElem_utf8EncodeChar.mp f
  subst i0
  cases hb : String.utf8EncodeChar c with
  | nil => rw [hb] at hi; simp at hi
  | cons b bs =>
    have hb32 : b = 32 := by simpa [hb] using e
    subst hb32
    have d1 : ByteArray.utf8DecodeChar? ((32 :: bs).toByteArray ++ ([] : List UInt8).toByteArray) 0 = some c := by
      rw [← hb]; exact ByteArray.utf8DecodeChar?_utf8EncodeChar_append
    have d2 : ByteArray.utf8DecodeChar? ([32].toByteArray ++ (bs ++ []).toByteArray) 0 = some ' ' := by
      rw [← encode_blank]; exact ByteArray.utf8DecodeChar?_utf8EncodeChar_append
    rw [← List.toByteArray_append] at d1 d2
    simp only [List.cons_append, List.nil_append] at d1 d2
    rw [d1] at d2
    simpa using d2

theorem blank_runes : ∀ (n : Nat) (bs : List UInt8), bs.length ≤ n → ' ' ∈ runes bs → (32 : UInt8) ∈ bs := by
  intro n
  induction n with
  | zero =>
    intro bs hn h
    have : bs = [] := List.length_eq_zero_iff.mp (by omega)
    subst this; simp [runes_nil] at h
  | succ n ih =>
    intro bs hn h
    cases bs with
    | nil => simp [runes_nil] at h
    | cons b bs =>
      rw [runes_cons] at h
      simp only [List.length_cons] at hn
      cases hd : ByteArray.utf8DecodeChar? (b :: bs).toByteArray 0 with
      | none =>
        rw [hd] at h
        rcases List.mem_cons.mp h with h | h
        · exact absurd h (by decide)
        · exact List.mem_cons_of_mem _ (ih bs (by omega) h)
      | some c =>
        rw [hd] at h
        rcases List.mem_cons.mp h with h | h
        · obtain ⟨r, hr⟩ := decode_split hd
          rw [hr, ← h, encode_blank]; simp
        · have := Char.utf8Size_pos c
          exact List.mem_of_mem_drop (ih _ (by simp; omega) h)

theorem dashBytes_utf8 (s : Str) : dashBytes (utf8 s) = utf8 (View.dash s) := by
  induction s with
  | nil => rfl
  | cons c s ih =>
    have hs : View.dash (c :: s) = (if c = ' ' then '-' else c) :: View.dash s := rfl
    rw [hs, utf8_cons, utf8_cons, ← ih]
    have : dashBytes (String.utf8EncodeChar c ++ utf8 s) = dashBytes (String.utf8EncodeChar c) ++ dashBytes (utf8 s) := by simp [dashBytes]
    rw [this]
    congr 1
    by_cases hc : c = ' '
    · subst hc; decide
    · rw [if_neg hc]
      unfold dashBytes
      have key : ∀ l : List UInt8, (∀ b ∈ l, b ≠ 32) → l.map (fun b => if b = 32 then 45 else b) = l := by
        intro l
        induction l with
        | nil => intro _; rfl
        | cons b bs ih' =>
          intro h
          rw [List.map_cons, ih' (fun x hx => h x (by simp [hx])), if_neg (h b (by simp))]
      exact key _ (fun b hb e => hc (blank_only (e ▸ hb)))

/-- A view of texts as the code has it. -/
def View.bytes (v : View) : BView := ⟨utf8 v.pre, v.delim, v.mode⟩

theorem bytes_full (v : View) (hd : v.delim.toNat < 128) (k : Str) : v.bytes.full (utf8 k) = utf8 (v.full k) := by
  unfold BView.full View.full
  by_cases h : v.pre = []
  · simp [View.bytes, h, utf8_nil]
  · have : v.bytes.pre ≠ [] := fun e => h (utf8_eq_nil.mp e)
    rw [if_pos this, if_pos h]
    exact C39_bytes hd [v.pre, k]

variable {α : Type} [Inhabited α]

/-- **C79** For valid strings and an ASCII delimiter the operations on Go strings are the operations on texts: everything proved about keys of runes
holds for them. -/
theorem C79_refines (v : View) (hd : v.delim.toNat < 128) (t : Tree α) (k : Str) :
    (∀ x, v.bytes.set t (utf8 k) x = v.set t k x) ∧ v.bytes.get t (utf8 k) = v.get t k ∧ v.bytes.mustGet t (utf8 k) = v.mustGet t k ∧
    v.bytes.has t (utf8 k) = v.has t k ∧ v.bytes.remove t (utf8 k) = v.remove t k := by
  have e := bytes_full v hd k
  refine ⟨fun x => ?_, ?_, ?_, ?_, ?_⟩
  · unfold BView.set; rw [e, dashBytes_utf8, runes_utf8]; rfl
  · unfold BView.get; rw [e, runes_utf8]; rfl
  · unfold BView.mustGet; rw [e, runes_utf8]; rfl
  · unfold BView.has; rw [e, runes_utf8]; rfl
  · unfold BView.remove; rw [e, runes_utf8]; rfl

/-- **C79** Distinct valid strings are distinct keys: writing one leaves an entry at the other alone. -/
theorem C79_apart {d : Char} {t : Tree α} (h : Reach (NoRoute d) t) {k1 k2 : List UInt8} (h1 : ValidUtf8 k1) (h2 : ValidUtf8 k2)
    (hne : dashBytes k1 ≠ k2) (hk : NoRoute d (runes (dashBytes k1))) {c : Core α} (hc : t.contents (runes k2) = some c) (x : α) :
    (⟨[], d, .none⟩ : BView).mustGet ((⟨[], d, .none⟩ : BView).set t k1 x).1 k2 = (⟨[], d, .none⟩ : BView).mustGet t k2 := by
  obtain ⟨s1, rfl⟩ := h1
  obtain ⟨s2, rfl⟩ := h2
  rw [dashBytes_utf8] at hne hk
  rw [runes_utf8] at hk hc
  have hne' : s2 ≠ View.dash s1 := fun e => hne (by rw [e])
  have := (C02_frame_entry (r := ⟨[], d, .none⟩) (v := ⟨[], d, .none⟩) h (p := s1) (p2 := s2) hk hne' x hc).2.1
  unfold BView.mustGet BView.set
  simp only [BView.full, BView.root, ne_eq, not_true, if_false, dashBytes_utf8, runes_utf8]
  exact this

/-- **C79** What one string writes is read by every string that decodes alike. -/
theorem C79_alike {d : Char} {t : Tree α} (h : Reach (NoRoute d) t) {k1 k2 : List UInt8} (he : runes (dashBytes k1) = runes k2)
    (hk : NoRoute d (runes (dashBytes k1))) (x : α) :
    (⟨[], d, .none⟩ : BView).mustGet ((⟨[], d, .none⟩ : BView).set t k1 x).1 k2 = .ok x := by
  obtain ⟨s, hs⟩ : ∃ s, s = runes (dashBytes k1) := ⟨_, rfl⟩
  have hsp : ' ' ∉ s := by
    rw [hs]; intro hm
    have := blank_runes _ _ (Nat.le_refl _) hm
    unfold dashBytes at this
    obtain ⟨b, _, hb⟩ := List.mem_map.mp this
    by_cases h32 : b = 32
    · rw [if_pos h32] at hb; exact absurd hb (by decide)
    · rw [if_neg h32] at hb; exact h32 hb
  have := C01_read_own_write_same (v := ⟨[], d, .none⟩) h (p := s) hsp (by rw [hs]; exact hk) x
  unfold BView.mustGet BView.set
  simp only [BView.full, BView.root, ne_eq, not_true, if_false, ← he, ← hs]
  have e : View.dash s = s := keyOf_nospace (v := ⟨[], d, .none⟩) hsp
  simpa [View.set, View.full, e] using this

/-- **C79** Every string, valid or not, shares its entry with a valid one. -/
theorem C79_alias (k : List UInt8) : ValidUtf8 (utf8 (runes k)) ∧ runes (utf8 (runes k)) = runes k ∧ (ValidUtf8 k → utf8 (runes k) = k) :=
  ⟨⟨_, rfl⟩, runes_utf8 _, fun ⟨s, hs⟩ => by rw [hs, runes_utf8]⟩

/-- **C79** That fails for strings that are not UTF-8: of two keys, the one written last is read for both. -/
theorem C79_invalid_fails : ∃ (k1 k2 : List UInt8) (v : BView), k1 ≠ k2 ∧
    v.mustGet (v.set (v.set (Tree.new : Tree Nat) k1 1).1 k2 2).1 k1 = .ok 2 :=
  ⟨[97, 0xff], [97, 0xfe], ⟨[], '.', .none⟩, by decide, by decide +kernel⟩

/-- **C79** With another delimiter than an ASCII character, what is stored at the joined path is not found through the prefix. -/
theorem C79_delim_fails : ∃ (v : View) (k : Str), v.pre ≠ [] ∧
    v.bytes.has ((View.new v.delim).bytes.set (Tree.new : Tree Nat) (utf8 (v.full k)) 1).1 (utf8 k) = .ok false ∧
    v.has ((View.new v.delim).set (Tree.new : Tree Nat) (v.full k) 1).1 k = .ok true :=
  ⟨⟨"a".toList, '→', .none⟩, "b".toList, by decide, by decide +kernel, by decide +kernel⟩

example : runes [97, 0xe2, 0x86, 98] = "a��b".toList := by decide +kernel
example : (⟨utf8 "a".toList, '.', .none⟩ : BView).mustGet
    ((⟨[], '.', .none⟩ : BView).set (Tree.new : Tree Nat) (utf8 "a.é".toList) 5).1 (utf8 "é".toList) = .ok 5 := by decide +kernel

end Verif
