import Verif.Model.Export
import Verif.Lemmas.Utf8
/-
Decoding undoes encoding.
-/
namespace Verif

theorem utf8_length_cons (c : Char) (s : Str) : (utf8 (c :: s)).length = c.utf8Size + (utf8 s).length := by
  rw [utf8_cons, List.length_append]
  congr 1
  exact String.length_utf8EncodeChar c

theorem runesFuel_utf8 (s : Str) : ∀ n, s.length ≤ n → runesFuel n (utf8 s) = s := by
  induction s with
  | nil => intro n _; cases n <;> simp [runesFuel, utf8]
  | cons c s ih =>
    intro n hn
    cases n with
    | zero => simp at hn
    | succ n =>
      have h1 : utf8 (c :: s) = String.utf8EncodeChar c ++ utf8 s := utf8_cons c s
      cases hb : utf8 (c :: s) with
      | nil =>
        have := utf8_length_cons c s
        rw [hb] at this
        have := Char.utf8Size_pos c
        simp at *; omega
      | cons b bs =>
        simp only [runesFuel]
        have h2 : ByteArray.utf8DecodeChar? (b :: bs).toByteArray 0 = some c := by
          rw [← hb, h1, List.toByteArray_append]
          exact ByteArray.utf8DecodeChar?_utf8EncodeChar_append
        rw [h2]
        simp only
        rw [← hb, h1, List.drop_left' (String.length_utf8EncodeChar c), ih n (by simpa using hn)]

theorem utf8_length_ge (s : Str) : s.length ≤ (utf8 s).length := by
  induction s with
  | nil => simp
  | cons c s ih =>
    rw [utf8_length_cons]
    have := Char.utf8Size_pos c
    simp; omega

theorem runes_utf8 (s : Str) : runes (utf8 s) = s := runesFuel_utf8 s _ (utf8_length_ge s)

end Verif
