import Verif.Model.Quote
import Verif.Lemmas.Runes
/-
C70: quoted strings in error messages can be read back.
-/
namespace Verif

/-- The value of a hexadecimal digit. -/
def hexVal (c : UInt8) : Option UInt8 :=
  if 48 ≤ c ∧ c ≤ 57 then some (c - 48) else if 97 ≤ c ∧ c ≤ 102 then some (c - 87) else none

/-- Reading a Go string literal in double quotes, after the opening quote: `\"`, `\\`, `\xhh`, and any other byte as itself; the
closing quote must be the end. -/
def unquoteBody : List UInt8 → Option (List UInt8)
  | [] => none
  | 34 :: rest => if rest = [] then some [] else none
  | 92 :: 120 :: h :: l :: rest =>
    match hexVal h, hexVal l, unquoteBody rest with
    | some a, some b, some r => some ((a * 16 + b) :: r)
    | _, _, _ => none
  | 92 :: e :: rest => if e = 34 ∨ e = 92 then (unquoteBody rest).map (e :: ·) else none
  | b :: rest => (unquoteBody rest).map (b :: ·)

def unquote : List UInt8 → Option (List UInt8)
  | 34 :: rest => unquoteBody rest
  | _ => none

theorem hex_byte (b : UInt8) : ∃ x y, hexVal (lowerhex (b >>> 4)) = some x ∧ hexVal (lowerhex (b &&& 15)) = some y ∧ x * 16 + y = b := by
  have h : ∀ b : UInt8, (match hexVal (lowerhex (b >>> 4)), hexVal (lowerhex (b &&& 15)) with
    | some x, some y => x * 16 + y == b
    | _, _ => false) = true := by
    intro b
    have : ∀ n : Fin 256, (match hexVal (lowerhex (UInt8.ofNat n.val >>> 4)), hexVal (lowerhex (UInt8.ofNat n.val &&& 15)) with
      | some x, some y => x * 16 + y == UInt8.ofNat n.val
      | _, _ => false) = true := by decide +kernel
    have h2 := this ⟨b.toNat, b.toNat_lt⟩
    simpa using h2
  have h1 := h b
  split at h1
  · rename_i x y hx hy
    exact ⟨x, y, hx, hy, by simpa using h1⟩
  · simp at h1

theorem unquote_hex (b : UInt8) (rest : List UInt8) : unquoteBody (hexByte b ++ rest) = (unquoteBody rest).map (b :: ·) := by
  obtain ⟨x, y, hx, hy, e⟩ := hex_byte b
  simp only [hexByte, List.cons_append, List.nil_append, unquoteBody, hx, hy]
  cases unquoteBody rest <;> simp [e]

theorem unquote_hexes (l rest : List UInt8) : unquoteBody (l.flatMap hexByte ++ rest) = (unquoteBody rest).map (l ++ ·) := by
  induction l with
  | nil => simp
  | cons b l ih =>
    rw [List.flatMap_cons, List.append_assoc, unquote_hex, ih]
    cases unquoteBody rest <;> simp

theorem unquote_plain {b : UInt8} (h1 : b ≠ 34) (h2 : b ≠ 92) (rest : List UInt8) :
    unquoteBody (b :: rest) = (unquoteBody rest).map (b :: ·) := by
  rw [unquoteBody.eq_def]
  split <;> simp_all

theorem unquote_escaped {b : UInt8} (h : b = 34 ∨ b = 92) (rest : List UInt8) :
    unquoteBody (92 :: b :: rest) = (unquoteBody rest).map (b :: ·) := by
  rw [unquoteBody.eq_def]
  split
  · simp_all
  · simp_all
  · rename_i h1
    cases h1
    rcases h with h | h <;> exact absurd h (by decide)
  · rename_i h1
    cases h1
    simp [h]
  · rename_i x h1 h2 h3 h4
    simp only [List.cons.injEq] at h4
    exact absurd h4.2.symm (h3 _ _ h4.1.symm)

/-- The first rune of a byte list. -/
theorem decode_some {s : List UInt8} {c : Char} (h : ByteArray.utf8DecodeChar? s.toByteArray 0 = some c) :
    ∃ r, s = String.utf8EncodeChar c ++ r := by
  obtain ⟨l, hl⟩ := ByteArray.exists_of_utf8DecodeChar?_eq_some h
  refine ⟨l.data.toList, ?_⟩
  have := congrArg (fun b => b.data.toList) hl
  simpa using this

theorem encode_ascii {c : Char} (h : c.toNat < 128) : String.utf8EncodeChar c = [UInt8.ofNat c.toNat] := by
  simp only [String.utf8EncodeChar]
  have h1 : c.val.toNat = c.toNat := rfl
  rw [h1, if_pos (by omega)]

theorem quoteFuel_read (n : Nat) : ∀ s : List UInt8, s.length ≤ n → unquoteBody (quoteFuel n s ++ [34]) = some s := by
  induction n with
  | zero => intro s hs; cases s with
    | nil => rfl
    | cons => simp at hs
  | succ n ih =>
    intro s hs
    cases s with
    | nil => rfl
    | cons b bs =>
      cases hd : ByteArray.utf8DecodeChar? (b :: bs).toByteArray 0 with
      | none =>
        have hw : quoteWidth '�' (b :: bs) = 1 := by
          unfold quoteWidth
          rw [if_pos rfl, if_neg]
          intro h3
          have h4 : b :: bs = String.utf8EncodeChar '�' ++ (b :: bs).drop 3 := by
            conv => lhs; rw [← List.take_append_drop 3 (b :: bs), h3]
            congr 1
          rw [h4, List.toByteArray_append, ByteArray.utf8DecodeChar?_utf8EncodeChar_append] at hd
          simp at hd
        simp only [quoteFuel, hd, hw]
        rw [if_pos (by decide), List.append_assoc, unquote_hexes]
        simp only [List.drop_succ_cons, List.drop_zero]
        rw [ih bs (by simpa using hs)]
        simp
      | some c =>
        obtain ⟨r, hr⟩ := decode_some hd
        have hl := String.length_utf8EncodeChar c
        have hdrop : (b :: bs).drop c.utf8Size = r := by rw [hr, List.drop_left' hl]
        have htake : (b :: bs).take c.utf8Size = String.utf8EncodeChar c := by rw [hr, List.take_left' hl]
        have hpos := Char.utf8Size_pos c
        have hlen : r.length ≤ n := by
          have := congrArg List.length hr
          rw [List.length_append, hl] at this
          simp only [List.length_cons] at this hs
          omega
        simp only [quoteFuel, hd]
        rw [hdrop]
        by_cases hc : 128 ≤ c.toNat ∨ c.toNat < 32
        · have hw : quoteWidth c (b :: bs) = c.utf8Size := by
            unfold quoteWidth
            split
            · rename_i h; subst h
              have e : ('�' : Char).utf8Size = 3 := by decide
              rw [e] at htake ⊢
              rw [htake, if_pos (by decide)]
            · rfl
          rw [if_pos hc, hw, htake, List.append_assoc, unquote_hexes, ih r hlen, hr]
          simp
        · rw [if_neg hc]
          have hc' : c.toNat < 128 := by omega
          rw [encode_ascii hc'] at hr ⊢
          by_cases hq : c = '"' ∨ c = '\\'
          · rw [if_pos hq]
            have hb : UInt8.ofNat c.toNat = 34 ∨ UInt8.ofNat c.toNat = 92 := by
              rcases hq with rfl | rfl
              · exact .inl rfl
              · exact .inr rfl
            simp only [List.cons_append, List.nil_append]
            rw [unquote_escaped hb, ih r hlen, hr]
            simp
          · rw [if_neg hq]
            have hne : UInt8.ofNat c.toNat ≠ 34 ∧ UInt8.ofNat c.toNat ≠ 92 := by
              have key : ∀ m : Nat, m < 256 → UInt8.ofNat c.toNat = UInt8.ofNat m → c.toNat = m := by
                intro m hm he
                have := congrArg UInt8.toNat he
                simpa [Nat.mod_eq_of_lt hm, Nat.mod_eq_of_lt (show c.toNat < 256 by omega)] using this
              refine ⟨fun h => hq (.inl ?_), fun h => hq (.inr ?_)⟩
              · exact Char.ext (UInt32.toNat.inj (key 34 (by decide) h))
              · exact Char.ext (UInt32.toNat.inj (key 92 (by decide) h))
            simp only [List.cons_append, List.nil_append]
            rw [unquote_plain hne.1 hne.2, ih r hlen, hr]
            simp

/-- **C70** Reading the quoted text back gives the bytes of the string, whatever they are, also if they are not UTF-8. -/
theorem C70_read_back (s : List UInt8) : unquote (quote s) = some s := by
  simp only [quote, unquote]
  exact quoteFuel_read _ s (Nat.le_refl _)

/-- **C70** Different strings have different quotations. -/
theorem C70_injective {s t : List UInt8} (h : quote s = quote t) : s = t := by
  have h1 := C70_read_back s
  rw [h, C70_read_back t] at h1
  exact (Option.some.inj h1).symm

/-- ASCII without control characters (`quote` leaves DEL, 127, as it is). -/
def Printable (l : List UInt8) : Prop := ∀ b ∈ l, 32 ≤ b ∧ b ≤ 127

theorem hexByte_printable (b : UInt8) : Printable (hexByte b) := by
  have : ∀ n : Fin 256, (hexByte (UInt8.ofNat n.val)).all (fun b => 32 ≤ b && b ≤ 127) = true := by decide +kernel
  have h2 := this ⟨b.toNat, b.toNat_lt⟩
  intro x hx
  simp only [UInt8.ofNat_toNat] at h2
  have h3 := List.all_eq_true.mp h2 x hx
  simpa using h3

theorem Printable.append {l m : List UInt8} (h : Printable l) (h' : Printable m) : Printable (l ++ m) := by
  intro b hb
  rcases List.mem_append.mp hb with hb | hb
  · exact h b hb
  · exact h' b hb

theorem quoteFuel_printable (n : Nat) : ∀ s, Printable (quoteFuel n s) := by
  induction n with
  | zero => intro s b hb; simp [quoteFuel] at hb
  | succ n ih =>
    intro s
    cases s with
    | nil => intro b hb; simp [quoteFuel] at hb
    | cons b bs =>
      simp only [quoteFuel]
      refine Printable.append ?_ (ih _)
      generalize (match ByteArray.utf8DecodeChar? (b :: bs).toByteArray 0 with
        | some c => (c, c.utf8Size)
        | none => ('�', 1)).1 = c
      by_cases hc : 128 ≤ c.toNat ∨ c.toNat < 32
      · rw [if_pos hc]
        intro x hx
        obtain ⟨y, -, hy⟩ := List.mem_flatMap.mp hx
        exact hexByte_printable y x hy
      · rw [if_neg hc, encode_ascii (by omega)]
        refine Printable.append ?_ ?_
        · split
          · intro x hx; simp at hx; subst hx; decide
          · intro x hx; simp at hx
        · intro x hx
          simp only [List.mem_singleton] at hx
          subst hx
          rw [UInt8.le_iff_toNat_le, UInt8.le_iff_toNat_le]
          have : (UInt8.ofNat c.toNat).toNat = c.toNat := by
            simp [Nat.mod_eq_of_lt (show c.toNat < 256 by omega)]
          rw [this]
          constructor
          · show 32 ≤ c.toNat
            omega
          · show c.toNat ≤ 127
            omega

/-- **C70** A quoted string is ASCII without control characters, so it cannot break the line or the encoding of a message. -/
theorem C70_printable (s : List UInt8) : Printable (quote s) := by
  intro b hb
  simp only [quote, List.mem_cons, List.mem_append, List.not_mem_nil, or_false] at hb
  rcases hb with rfl | hb | rfl
  · decide
  · exact quoteFuel_printable _ _ b hb
  · decide

section examples
/-- A string with a quote, a line break, a two-byte rune, a stray continuation byte and a real U+FFFD. -/
example : quote ([97, 34, 10] ++ utf8 "µ".toList ++ [128, 122] ++ utf8 "�".toList) =
    utf8 "\"a\\\"\\x0a\\xc2\\xb5\\x80z\\xef\\xbf\\xbd\"".toList := by decide +kernel
end examples

end Verif
