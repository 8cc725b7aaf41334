import Verif.Basic

/-!
# Specification: a file as an array of bytes

What writing at an offset and truncating mean. No DAG, no buffer.
-/

namespace Unixfs.Spec

/-- `n` zero bytes. -/
def zeros (n : Nat) : Bytes := List.replicate n 0

/-- The file `c` after the bytes `b` were written at offset `off`: what is before and after stays, and
a gap between the old end and `off` reads as zeros. -/
def overlay (c : Bytes) (off : Nat) (b : Bytes) : Bytes :=
  c.take off ++ zeros (off - c.length) ++ b ++ c.drop (off + b.length)

/-- The file `c` cut off, or extended with zeros, to length `n`. -/
def resize (c : Bytes) (n : Nat) : Bytes := c.take n ++ zeros (n - c.length)

/-- What `overlay` means byte by byte. -/
theorem overlay_get (c : Bytes) (off : Nat) (b : Bytes) (i : Nat) :
    (overlay c off b)[i]? =
      if i < off then (if i < c.length then c[i]? else some 0)
      else if i < off + b.length then b[i - off]? else c[i]? := by
  unfold overlay zeros
  rw [List.append_assoc, List.append_assoc, List.getElem?_append, List.getElem?_append, List.getElem?_append]
  simp only [List.length_take, List.length_replicate, List.getElem?_take, List.getElem?_replicate, List.getElem?_drop]
  by_cases h1 : i < off
  · by_cases h2 : i < c.length
    · rw [if_pos (by omega)]; simp [h1, h2]
    · rw [if_neg (by omega), if_pos (by omega), if_pos (by omega)]; simp [h1, h2]
  · rw [if_neg (by omega), if_neg (by omega), if_neg h1]
    by_cases h3 : i < off + b.length
    · rw [if_pos (by omega), if_pos h3]; congr 1; omega
    · rw [if_neg (by omega), if_neg h3]; congr 1; omega

theorem overlay_length (c : Bytes) (off : Nat) (b : Bytes) : (overlay c off b).length = max c.length (off + b.length) := by
  simp [overlay, zeros]; omega

end Unixfs.Spec
