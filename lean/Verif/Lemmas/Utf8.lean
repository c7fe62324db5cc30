import Verif.Model.Basic
/-
UTF-8 facts.
-/
namespace Verif

theorem utf8_inj {s t : Str} (h : utf8 s = utf8 t) : s = t := by
  have h1 : s.utf8Encode = t.utf8Encode := by
    simp only [List.utf8Encode]
    exact congrArg List.toByteArray h
  have h2 : String.ofList s = String.ofList t := by
    simp only [String.ofList, h1]
  have h3 := congrArg String.toList h2
  simpa using h3

theorem utf8_append (s t : Str) : utf8 (s ++ t) = utf8 s ++ utf8 t := by simp [utf8]
theorem utf8_cons (c : Char) (t : Str) : utf8 (c :: t) = String.utf8EncodeChar c ++ utf8 t := by simp [utf8]
theorem utf8_nil : utf8 [] = [] := rfl

theorem utf8Char_ascii {c : Char} (h : c.toNat < 128) : (String.utf8EncodeChar c).length = 1 := by
  have : c.toNat ≤ 127 := by omega
  simp [String.utf8EncodeChar, this]

theorem Ascii.cons {c : Char} {s : Str} : Ascii (c :: s) ↔ c.toNat < 128 ∧ Ascii s := by simp [Ascii]
theorem Ascii.append {s t : Str} : Ascii (s ++ t) ↔ Ascii s ∧ Ascii t := by
  simp only [Ascii, List.mem_append]
  constructor
  · intro h; exact ⟨fun c hc => h c (.inl hc), fun c hc => h c (.inr hc)⟩
  · rintro ⟨h1, h2⟩ c (hc | hc)
    · exact h1 c hc
    · exact h2 c hc
theorem Ascii.prefix {s t : Str} (h : Ascii t) (hp : s <+: t) : Ascii s := fun c hc => h c (hp.subset hc)

theorem utf8_ascii_length {s : Str} (h : Ascii s) : (utf8 s).length = s.length := by
  induction s with
  | nil => rfl
  | cons c cs ih =>
    rw [Ascii.cons] at h
    simp [utf8_cons, utf8Char_ascii h.1, ih h.2]; omega

/-- Bytes of a prefix of an ASCII string. -/
theorem utf8_take_prefix {s t : Str} (h : Ascii t) (hp : s <+: t) :
    (utf8 t).take ((utf8 t).length - (t.length - s.length)) = utf8 s := by
  obtain ⟨z, rfl⟩ := hp
  have h1 := Ascii.append.mp h
  rw [utf8_append, List.length_append, utf8_ascii_length h1.1, utf8_ascii_length h1.2, List.length_append]
  have : s.length + z.length - (s.length + z.length - s.length) = (utf8 s).length := by
    rw [utf8_ascii_length h1.1]; omega
  rw [this]; simp

theorem utf8_prefix {s t : Str} (hp : s <+: t) : utf8 s <+: utf8 t := by
  obtain ⟨z, rfl⟩ := hp
  rw [utf8_append]; exact List.prefix_append ..

end Verif
