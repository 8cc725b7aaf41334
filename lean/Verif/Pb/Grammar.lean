import Verif.Spec.Bytes
import Verif.Pb.WireSpec

/-!
# The decoder accepts the grammar of `Spec/Bytes.lean` (C110)

The definitions in this file belong to proofs; they model no code.
-/

namespace Unixfs.Pb
open Unixfs Unixfs.Spec

theorem encVarintF_leb : ∀ (f n : Nat), n < 128 ^ (f + 1) → encVarintF f n = leb n
  | 0, n, h => by
    have h : n < 128 := by simpa using h
    rw [encVarintF, leb, if_pos h, Nat.mod_eq_of_lt h]
  | f + 1, n, h => by
    rw [encVarintF, leb]
    split
    · rfl
    · rw [encVarintF_leb f (n / 128) (by rw [Nat.div_lt_iff_lt_mul (by norm_num)]; rw [pow_succ] at h; exact h)]

theorem encVarint_leb {n : Nat} (h : n < 2 ^ 64) : encVarint n = leb n :=
  encVarintF_leb 9 n (Nat.lt_trans h (by norm_num))

theorem decVarintF_sound : ∀ (b : Bytes) (i v : Nat) (r : Bytes), i ≤ 9 → decVarintF i b = some (v, r) → ∃ bs, b = bs ++ r ∧ Varint v bs ∧ i + bs.length ≤ 10
  | [], _, _, _, _, h => by simp [decVarintF] at h
  | x :: xs, i, v, r, hi, h => by
    unfold decVarintF at h
    split at h
    next h1 =>
      split at h
      · cases h
      · cases h
        exact ⟨[x], rfl, .last h1, by simp; omega⟩
    next h1 =>
      split at h
      · cases h
      next h2 =>
        split at h
        · cases h
        next v' r' e =>
          cases h
          obtain ⟨bs, rfl, hv, hl⟩ := decVarintF_sound xs (i + 1) v' r (by omega) e
          exact ⟨x :: bs, rfl, .more (by omega) hv, by simp only [List.length_cons]; omega⟩

theorem decVarintF_complete {v : Nat} {bs : Bytes} (h : Varint v bs) : ∀ (i : Nat) (r : Bytes), i + bs.length ≤ 10 → v < 2 ^ (64 - 7 * i) →
    decVarintF i (bs ++ r) = some (v, r) := by
  induction h with
  | @last b hb =>
    intro i r hi hv
    simp only [List.cons_append, List.nil_append, decVarintF]
    rw [if_pos hb, if_neg]
    rintro ⟨rfl, h2⟩
    simp at hv
    omega
  | @more b v bs hb hbs ih =>
    intro i r hi hv
    have hlen : 0 < bs.length := by cases hbs <;> simp
    simp only [List.length_cons] at hi
    simp only [List.cons_append, decVarintF]
    have hpow : 2 ^ (64 - 7 * i) = 128 * 2 ^ (64 - 7 * (i + 1)) := by
      rw [show 64 - 7 * i = 7 + (64 - 7 * (i + 1)) by omega, pow_add]; norm_num
    rw [if_neg (by omega), if_neg (by omega), ih (i + 1) r (by omega) (by rw [hpow] at hv; omega)]

/-- `decodeVarint` takes exactly the numbers of 64 bits. -/
theorem decVarint_iff {b r : Bytes} {v : Nat} : decVarint b = some (v, r) ↔ ∃ bs, b = bs ++ r ∧ V64 v bs := by
  constructor
  · intro h
    obtain ⟨bs, rfl, h1, h2⟩ := decVarintF_sound b 0 v r (by omega) h
    exact ⟨bs, rfl, h1, by omega, decVarint_lt h⟩
  · rintro ⟨bs, rfl, h1, h2, h3⟩
    exact decVarintF_complete h1 0 r (by omega) (by simpa using h3)

theorem _root_.Unixfs.Spec.V64.dec {v : Nat} {bs : Bytes} (h : V64 v bs) (r : Bytes) : decVarint (bs ++ r) = some (v, r) := decVarint_iff.mpr ⟨bs, rfl, h⟩

theorem _root_.Unixfs.Spec.V64.of_dec {v : Nat} {key : Bytes} (h : ∀ r, decVarint (key ++ r) = some (v, r)) : V64 v key := by
  obtain ⟨bs, e, hv⟩ := decVarint_iff.mp (h [])
  simp only [List.append_nil] at e
  exact e ▸ hv

theorem _root_.Unixfs.Spec.V64.ne_nil {v : Nat} {bs : Bytes} (h : V64 v bs) : bs ≠ [] := by
  obtain ⟨h, _⟩ := h
  cases h <;> simp

theorem _root_.Unixfs.Spec.V64.leb {n : Nat} (h : n < 2 ^ 64) : V64 n (Spec.leb n) := by
  rw [← encVarint_leb h]
  exact Spec.V64.of_dec (fun r => decVarint_encVarint n r h)

theorem skipBytes_iff {b r : Bytes} : skipBytes b = some r ↔ ∃ len d, b = len ++ d ++ r ∧ V64 d.length len := by
  unfold skipBytes dropExact
  constructor
  · intro h
    split at h
    · cases h
    next m s e =>
      split at h
      · cases h
      next hl =>
        cases h
        obtain ⟨bs, rfl, hv⟩ := decVarint_iff.mp e
        refine ⟨bs, s.take m, by rw [List.append_assoc, List.take_append_drop], ?_⟩
        rw [List.length_take, Nat.min_eq_left (by omega)]; exact hv
  · rintro ⟨len, d, rfl, hv⟩
    rw [List.append_assoc, hv.dec]
    simp

theorem dropExact_iff {n : Nat} {b r : Bytes} : dropExact n b = some r ↔ ∃ p, b = p ++ r ∧ p.length = n := by
  unfold dropExact
  constructor
  · intro h
    split at h
    · cases h
    next hl => cases h; exact ⟨b.take n, (List.take_append_drop _ _).symm, by rw [List.length_take, Nat.min_eq_left (by omega)]⟩
  · rintro ⟨p, rfl, hp⟩
    rw [if_neg (by simp; omega), List.drop_left' hp]

/-- `d` groups one after the other. -/
inductive Groups : Nat → Bytes → Prop
  | zero : Groups 0 []
  | succ {d : Nat} {g gs : Bytes} : Group g → Groups d gs → Groups (d + 1) (g ++ gs)

theorem Groups.field {d x : Nat} {key p gs : Bytes} (h1 : V64 x key) (h2 : Payload (x % 8) p) (h : Groups (d + 1) gs) : Groups (d + 1) (key ++ (p ++ gs)) := by
  cases h with
  | @succ _ g gs' hg hs =>
    rw [show key ++ (p ++ (g ++ gs')) = (key ++ (p ++ g)) ++ gs' by simp]
    exact .succ (.field h1 h2 hg) hs

theorem skipGroup_sound : ∀ (f d : Nat) (b r : Bytes), skipGroup f (d + 1) b = some r → ∃ g, b = g ++ r ∧ Groups (d + 1) g
  | 0, _, _, _, h => by simp [skipGroup] at h
  | f + 1, d, b, r, h => by
    have comb : ∀ {x : Nat} {key p s' : Bytes}, b = key ++ (p ++ s') → V64 x key → Payload (x % 8) p → skipGroup f (d + 1) s' = some r → ∃ g, b = g ++ r ∧ Groups (d + 1) g := by
      intro x key p s' hb hk hp hs
      obtain ⟨g, rfl, hg⟩ := skipGroup_sound f d s' r hs
      exact ⟨key ++ (p ++ g), by rw [hb]; simp, .field hk hp hg⟩
    unfold skipGroup at h
    split at h
    · cases h
    next x s e =>
      obtain ⟨key, rfl, hk⟩ := decVarint_iff.mp e
      split at h
      next hw =>
        split at h
        · cases h
        next v s' e2 =>
          obtain ⟨p, rfl, hp⟩ := decVarint_iff.mp e2
          exact comb rfl hk (hw ▸ .varint hp) h
      · split at h
        next hw =>
          split at h
          · cases h
          next s' e2 =>
            obtain ⟨p, rfl, hp⟩ := dropExact_iff.mp e2
            exact comb rfl hk (hw ▸ .fixed64 hp) h
        · split at h
          next hw =>
            split at h
            · cases h
            next s' e2 =>
              obtain ⟨len, dd, rfl, hp⟩ := skipBytes_iff.mp e2
              exact comb rfl hk (hw ▸ .bytes hp) h
          · split at h
            next hw =>
              obtain ⟨g, rfl, hg⟩ := skipGroup_sound f (d + 1) s r h
              cases hg with
              | @succ _ g1 gs hg1 hgs =>
                exact ⟨key ++ (g1 ++ gs), by simp, .field hk (hw ▸ .group hg1) hgs⟩
            · split at h
              next hw =>
                split at h
                next hd =>
                  cases h
                  have : d = 0 := by omega
                  subst this
                  exact ⟨key, rfl, by simpa using Groups.succ (.stop hk hw) .zero⟩
                next hd =>
                  obtain ⟨d', rfl⟩ : ∃ d', d = d' + 1 := ⟨d - 1, by omega⟩
                  obtain ⟨g, rfl, hg⟩ := skipGroup_sound f d' s r h
                  exact ⟨key ++ g, by simp, .succ (.stop hk hw) hg⟩
              · split at h
                next hw =>
                  split at h
                  · cases h
                  next s' e2 =>
                    obtain ⟨p, rfl, hp⟩ := dropExact_iff.mp e2
                    exact comb rfl hk (hw ▸ .fixed32 hp) h
                · cases h

/-- What is skipped after a group in a group. -/
def After (d : Nat) (g : Bytes) : Prop := ∀ (f : Nat) (r : Bytes), g.length ≤ f →
  ∃ f', f ≤ f' + g.length ∧ skipGroup f (d + 1) (g ++ r) = if d = 0 then some r else skipGroup f' d r

/-- The step of `skipGroup` for a field with this payload. -/
def Steps (x : Nat) (p : Bytes) : Prop := ∀ (d f : Nat) (key r : Bytes), V64 x key → p.length ≤ f →
  ∃ f', f ≤ f' + p.length ∧ skipGroup (f + 1) (d + 1) (key ++ (p ++ r)) = skipGroup f' (d + 1) r

mutual
theorem payload_steps : ∀ {w : Nat} {p : Bytes}, Payload w p → ∀ x, x % 8 = w → Steps x p
  | _, _, .varint h, x, hx => by
    intro d f key r hk hl
    refine ⟨f, by omega, ?_⟩
    rw [skipGroup, hk.dec]
    simp only [hx, if_true, h.dec]
  | _, _, .fixed64 h, x, hx => by
    intro d f key r hk hl
    refine ⟨f, by omega, ?_⟩
    rw [skipGroup, hk.dec]
    simp only [hx, dropExact_iff.mpr ⟨_, rfl, h⟩]
    norm_num
  | _, _, .bytes h, x, hx => by
    intro d f key r hk hl
    refine ⟨f, by omega, ?_⟩
    rw [skipGroup, hk.dec]
    simp only [hx, skipBytes_iff.mpr ⟨_, _, rfl, h⟩]
    norm_num
  | _, _, .group h, x, hx => by
    intro d f key r hk hl
    obtain ⟨f', h1, h2⟩ := group_after h (d + 1) f r hl
    refine ⟨f', h1, ?_⟩
    rw [skipGroup, hk.dec]
    simp only [hx]
    rw [if_neg (by omega), if_neg (by omega), if_neg (by omega), if_pos trivial, h2, if_neg (by omega)]
  | _, _, .fixed32 h, x, hx => by
    intro d f key r hk hl
    refine ⟨f, by omega, ?_⟩
    rw [skipGroup, hk.dec]
    simp only [hx, dropExact_iff.mpr ⟨_, rfl, h⟩]
    norm_num
theorem group_after : ∀ {g : Bytes}, Group g → ∀ d, After d g
  | _, .stop hk hx, d => by
    intro f r hl
    have := List.length_pos_iff.mpr hk.ne_nil
    obtain ⟨f, rfl⟩ : ∃ f', f = f' + 1 := ⟨f - 1, by omega⟩
    refine ⟨f, by omega, ?_⟩
    rw [skipGroup, hk.dec]
    simp only [hx]
    rw [if_neg (by omega), if_neg (by omega), if_neg (by omega), if_neg (by omega), if_pos trivial]
    by_cases hd : d = 0
    · rw [if_pos (by omega), if_pos hd]
    · rw [if_neg (by omega), if_neg hd]; rfl
  | _, .field (x := x) (key := key) (p := p) (rest := rest) hk hp hg, d => by
    intro f r hl
    have hpos := List.length_pos_iff.mpr hk.ne_nil
    simp only [List.length_append] at hl ⊢
    obtain ⟨f, rfl⟩ : ∃ f', f = f' + 1 := ⟨f - 1, by omega⟩
    obtain ⟨f1, h1, h2⟩ := payload_steps hp x rfl d f key (rest ++ r) hk (by omega)
    obtain ⟨f2, h3, h4⟩ := group_after hg d f1 r (by omega)
    refine ⟨f2, by omega, ?_⟩
    rw [show key ++ (p ++ rest) ++ r = key ++ (p ++ (rest ++ r)) by simp, h2, h4]
end

/-- `skipField` takes exactly the payloads of the grammar. -/
theorem skipField_iff {w : Nat} {b r : Bytes} : skipField w b = .ok r ↔ ∃ p, b = p ++ r ∧ Payload w p := by
  unfold skipField
  constructor
  · intro h
    split at h
    next hw =>
      subst hw
      split at h
      · cases h
      next v s e => cases h; obtain ⟨p, rfl, hp⟩ := decVarint_iff.mp e; exact ⟨p, rfl, .varint hp⟩
    · split at h
      next hw =>
        subst hw
        split at h
        · cases h
        next s e => cases h; obtain ⟨p, rfl, hp⟩ := dropExact_iff.mp e; exact ⟨p, rfl, .fixed64 hp⟩
      · split at h
        next hw =>
          subst hw
          split at h
          · cases h
          next s e => cases h; obtain ⟨len, d, rfl, hp⟩ := skipBytes_iff.mp e; exact ⟨_, rfl, .bytes hp⟩
        · split at h
          next hw =>
            subst hw
            split at h
            · cases h
            next s e =>
              cases h
              obtain ⟨g, rfl, hg⟩ := skipGroup_sound _ 0 _ _ e
              cases hg with
              | @succ _ g1 gs h1 h2 =>
                cases h2
                exact ⟨_, rfl, .group (by simpa using h1)⟩
          · split at h
            next hw =>
              subst hw
              split at h
              · cases h
              next s e => cases h; obtain ⟨p, rfl, hp⟩ := dropExact_iff.mp e; exact ⟨p, rfl, .fixed32 hp⟩
            · cases h
  · rintro ⟨p, rfl, hp⟩
    cases hp with
    | varint h => simp [h.dec]
    | fixed64 h => simp [dropExact_iff.mpr ⟨_, rfl, h⟩]
    | bytes h => simp only [skipBytes_iff.mpr ⟨_, _, rfl, h⟩]; norm_num
    | group h =>
      obtain ⟨f', _, h2⟩ := group_after h 0 (p ++ r).length r (by simp)
      rw [if_neg (by omega), if_neg (by omega), if_neg (by omega), if_pos rfl, show (1 : Nat) = 0 + 1 from rfl, h2]
      simp
    | fixed32 h => simp [dropExact_iff.mpr ⟨_, rfl, h⟩]

theorem decPacked_iff : ∀ {f : Nat} {b : Bytes} {l : List UInt64}, b.length ≤ f → (decPacked f b = some l ↔ ∃ vs, Packed vs b ∧ l = vs.map UInt64.ofNat) := by
  intro f
  induction f with
  | zero =>
    intro b l hb
    have : b = [] := List.length_eq_zero_iff.mp (by omega)
    subst this
    simp only [decPacked]
    constructor
    · intro h; cases h; exact ⟨[], .nil, rfl⟩
    · rintro ⟨vs, hp, rfl⟩
      generalize hb : ([] : Bytes) = b at hp
      cases hp with
      | nil => rfl
      | cons h _ => exact absurd (List.append_eq_nil_iff.mp hb.symm).1 h.ne_nil
  | succ f ih =>
    intro b l hb
    cases b with
    | nil =>
      simp only [decPacked]
      constructor
      · intro h; cases h; exact ⟨[], .nil, rfl⟩
      · rintro ⟨vs, hp, rfl⟩
        generalize hb : ([] : Bytes) = b at hp
        cases hp with
        | nil => rfl
        | cons h _ => exact absurd (List.append_eq_nil_iff.mp hb.symm).1 h.ne_nil
    | cons y ys =>
      simp only [decPacked]
      constructor
      · intro h
        split at h
        · cases h
        next v r e =>
          obtain ⟨bs, hbs, hv⟩ := decVarint_iff.mp e
          have hlt := decVarint_length e
          split at h
          · cases h
          next l' e2 =>
            cases h
            obtain ⟨vs, hp, rfl⟩ := (ih (by omega)).mp e2
            exact ⟨v :: vs, hbs ▸ .cons hv hp, rfl⟩
      · rintro ⟨vs, hp, rfl⟩
        generalize hyb : y :: ys = b at hp hb
        cases hp with
        | nil => cases hyb
        | @cons v vs bs rest hv hp =>
          have := List.length_pos_iff.mpr hv.ne_nil
          rw [hv.dec]
          simp only [List.length_append] at hb
          simp only [(ih (b := rest) (by omega)).mpr ⟨vs, hp, rfl⟩, List.map_cons]

theorem decBytes_iff {b d r : Bytes} : decBytes b = some (d, r) ↔ ∃ len, b = len ++ d ++ r ∧ V64 d.length len := by
  unfold decBytes
  constructor
  · intro h
    split at h
    · cases h
    next m s e =>
      split at h
      · cases h
      next hl =>
        cases h
        obtain ⟨bs, rfl, hv⟩ := decVarint_iff.mp e
        refine ⟨bs, by rw [List.append_assoc, List.take_append_drop], ?_⟩
        rw [List.length_take, Nat.min_eq_left (by omega)]; exact hv
  · rintro ⟨len, rfl, hv⟩
    rw [List.append_assoc, hv.dec]
    simp

theorem needVarint_iff {b r : Bytes} {v : Nat} : needVarint b = .ok (v, r) ↔ ∃ bs, b = bs ++ r ∧ V64 v bs := by
  rw [← decVarint_iff]
  unfold needVarint
  split <;> simp_all

/-- What follows the key `x` of the field `i`. -/
inductive Pay : Nat → Item → Bytes → Prop
  | typ {bs : Bytes} {v : Nat} : V64 v bs → Pay 8 (.typ v) bs
  | data {len d : Bytes} : V64 d.length len → Pay 18 (.data d) (len ++ d)
  | filesize {bs : Bytes} {v : Nat} : V64 v bs → Pay 24 (.filesize v) bs
  | size {bs : Bytes} {v : Nat} : V64 v bs → Pay 32 (.sizes [v]) bs
  | packed {len body : Bytes} {vs : List Nat} : V64 body.length len → Packed vs body → Pay 34 (.sizes vs) (len ++ body)
  | hashType {bs : Bytes} {v : Nat} : V64 v bs → Pay 40 (.hashType v) bs
  | fanout {bs : Bytes} {v : Nat} : V64 v bs → Pay 48 (.fanout v) bs
  | unknown {p : Bytes} {x : Nat} : 8 ≤ x → x ∉ [8, 18, 24, 32, 34, 40, 48] → Payload (x % 8) p → Pay x (.unknown x p) p

theorem itemBytes_iff {i : Item} {bs : Bytes} : ItemBytes i bs ↔ ∃ x key p, V64 x key ∧ bs = key ++ p ∧ Pay x i p := by
  constructor
  · intro h
    cases h with
    | typ h1 h2 => exact ⟨_, _, _, h1, rfl, .typ h2⟩
    | data h1 h2 => exact ⟨_, _, _, h1, rfl, .data h2⟩
    | filesize h1 h2 => exact ⟨_, _, _, h1, rfl, .filesize h2⟩
    | size h1 h2 => exact ⟨_, _, _, h1, rfl, .size h2⟩
    | packed h1 h2 h3 => exact ⟨_, _, _, h1, rfl, .packed h2 h3⟩
    | hashType h1 h2 => exact ⟨_, _, _, h1, rfl, .hashType h2⟩
    | fanout h1 h2 => exact ⟨_, _, _, h1, rfl, .fanout h2⟩
    | unknown h1 h2 h3 h4 => exact ⟨_, _, _, h1, rfl, .unknown h2 h3 h4⟩
  · rintro ⟨x, key, p, h, rfl, hp⟩
    cases hp with
    | typ h2 => exact .typ h h2
    | data h2 => exact .data h h2
    | filesize h2 => exact .filesize h h2
    | size h2 => exact .size h h2
    | packed h2 h3 => exact .packed h h2 h3
    | hashType h2 => exact .hashType h h2
    | fanout h2 => exact .fanout h h2
    | unknown h2 h3 h4 => exact .unknown h h2 h3 h4

/-- The effect of a field. -/
def applyI (m : Data) : Item → Data
  | .typ v => { m with typ := some (UInt32.ofNat v) }
  | .data d => { m with data := some d }
  | .filesize v => { m with filesize := some (UInt64.ofNat v) }
  | .sizes vs => { m with blocksizes := m.blocksizes ++ vs.map UInt64.ofNat }
  | .hashType v => { m with hashType := some (UInt64.ofNat v) }
  | .fanout v => { m with fanout := some (UInt64.ofNat v) }
  | .unknown x p => { m with unrec := m.unrec ++ (Spec.leb x ++ p) }

theorem meaning_concat (is : List Item) (i : Item) : meaning (is ++ [i]) = applyI (meaning is) i := by
  cases i <;> simp [meaning, applyI, lastOf, Item.typ?, Item.data?, Item.filesize?, Item.hashType?, Item.fanout?, Item.sizesIn, Item.kept]

theorem meaning_foldl (is js : List Item) : js.foldl applyI (meaning is) = meaning (is ++ js) := by
  induction js generalizing is with
  | nil => simp
  | cons j js ih => simp only [List.foldl_cons, ← meaning_concat, ih]; simp

theorem step_pay {m m' : Data} {x : Nat} {b r : Bytes} (hx : x < 2 ^ 64) (h : m.step x b = .ok (m', r)) :
    ∃ i p, b = p ++ r ∧ Pay x i p ∧ m' = applyI m i := by
  have nv : ∀ (k : Nat → Data) (it : Nat → Item), (do let (v, r) ← needVarint b; return (k v, r) : Except Err (Data × Bytes)) = .ok (m', r) →
      (∀ v bs, V64 v bs → Pay x (it v) bs) → (∀ v, k v = applyI m (it v)) → ∃ i p, b = p ++ r ∧ Pay x i p ∧ m' = applyI m i := by
    intro k it hk hp ha
    cases e : needVarint b with
    | error e' => rw [e] at hk; simp [bind, Except.bind] at hk
    | ok q =>
      obtain ⟨v, s⟩ := q
      rw [e] at hk
      simp only [bind, Except.bind, pure, Except.pure, Except.ok.injEq, Prod.mk.injEq] at hk
      obtain ⟨bs, hb, hv⟩ := needVarint_iff.mp e
      exact ⟨it v, bs, by rw [hb, hk.2], hp v bs hv, by rw [← hk.1, ha]⟩
  unfold Data.step at h
  dsimp only at h
  by_cases h0 : x / 8 = 0
  · rw [if_pos h0] at h; cases h
  rw [if_neg h0] at h
  by_cases h1 : x / 8 = 1 ∧ x % 8 = 0
  · obtain rfl : x = 8 := by omega
    rw [if_pos h1] at h
    exact nv _ .typ h (fun _ _ => .typ) (fun _ => rfl)
  rw [if_neg h1] at h
  by_cases h2 : x / 8 = 2 ∧ x % 8 = 2
  · obtain rfl : x = 18 := by omega
    rw [if_pos h2] at h
    split at h
    · cases h
    next d s e =>
      cases h
      obtain ⟨len, hb, hv⟩ := decBytes_iff.mp e
      exact ⟨.data d, _, hb, .data hv, rfl⟩
  rw [if_neg h2] at h
  by_cases h3 : x / 8 = 3 ∧ x % 8 = 0
  · obtain rfl : x = 24 := by omega
    rw [if_pos h3] at h
    exact nv _ .filesize h (fun _ _ => .filesize) (fun _ => rfl)
  rw [if_neg h3] at h
  by_cases h4 : x / 8 = 4 ∧ x % 8 = 0
  · obtain rfl : x = 32 := by omega
    rw [if_pos h4] at h
    exact nv _ (fun v => .sizes [v]) h (fun _ _ => .size) (fun _ => rfl)
  rw [if_neg h4] at h
  by_cases h5 : x / 8 = 4 ∧ x % 8 = 2
  · obtain rfl : x = 34 := by omega
    rw [if_pos h5] at h
    split at h
    · cases h
    next d s e =>
      split at h
      · cases h
      next l e2 =>
        cases h
        obtain ⟨len, hb, hv⟩ := decBytes_iff.mp e
        obtain ⟨vs, hp, rfl⟩ := (decPacked_iff (Nat.le_refl _)).mp e2
        exact ⟨.sizes vs, _, hb, .packed hv hp, rfl⟩
  rw [if_neg h5] at h
  by_cases h6 : x / 8 = 5 ∧ x % 8 = 0
  · obtain rfl : x = 40 := by omega
    rw [if_pos h6] at h
    exact nv _ .hashType h (fun _ _ => .hashType) (fun _ => rfl)
  rw [if_neg h6] at h
  by_cases h7 : x / 8 = 6 ∧ x % 8 = 0
  · obtain rfl : x = 48 := by omega
    rw [if_pos h7] at h
    exact nv _ .fanout h (fun _ _ => .fanout) (fun _ => rfl)
  rw [if_neg h7] at h
  cases e : skipField (x % 8) b with
  | error e' => rw [e] at h; simp [bind, Except.bind] at h
  | ok s =>
    rw [e] at h
    simp only [bind, Except.bind, pure, Except.pure, Except.ok.injEq, Prod.mk.injEq] at h
    obtain ⟨h, rfl⟩ := h
    obtain ⟨p, rfl, hp⟩ := skipField_iff.mp e
    refine ⟨.unknown x p, p, rfl, .unknown (by omega) (fun hm => ?_) hp, ?_⟩
    · simp only [List.mem_cons, List.not_mem_nil, or_false] at hm
      rcases hm with rfl | rfl | rfl | rfl | rfl | rfl | rfl
      · exact h1 ⟨rfl, rfl⟩
      · exact h2 ⟨rfl, rfl⟩
      · exact h3 ⟨rfl, rfl⟩
      · exact h4 ⟨rfl, rfl⟩
      · exact h5 ⟨rfl, rfl⟩
      · exact h6 ⟨rfl, rfl⟩
      · exact h7 ⟨rfl, rfl⟩
    rw [← h, encVarint_leb hx]
    simp [applyI]

theorem pay_step {m : Data} {x : Nat} {i : Item} {p r : Bytes} (hx : x < 2 ^ 64) (h : Pay x i p) : m.step x (p ++ r) = .ok (applyI m i, r) := by
  cases h with
  | typ hv => simp [Data.step, needVarint_iff.mpr ⟨_, rfl, hv⟩, applyI, bind, Except.bind, pure, Except.pure]
  | data hv => simp only [Data.step, decBytes_iff.mpr ⟨_, rfl, hv⟩]; norm_num [applyI]
  | filesize hv => simp [Data.step, needVarint_iff.mpr ⟨_, rfl, hv⟩, applyI, bind, Except.bind, pure, Except.pure]
  | size hv => simp [Data.step, needVarint_iff.mpr ⟨_, rfl, hv⟩, applyI, bind, Except.bind, pure, Except.pure]
  | packed hv hp =>
    have e2 := (decPacked_iff (Nat.le_refl _)).mpr ⟨_, hp, rfl⟩
    simp only [Data.step, decBytes_iff.mpr ⟨_, rfl, hv⟩, e2]; norm_num [applyI]
  | hashType hv => simp [Data.step, needVarint_iff.mpr ⟨_, rfl, hv⟩, applyI, bind, Except.bind, pure, Except.pure]
  | fanout hv => simp [Data.step, needVarint_iff.mpr ⟨_, rfl, hv⟩, applyI, bind, Except.bind, pure, Except.pure]
  | unknown h8 hn hp =>
    simp only [List.mem_cons, List.not_mem_nil] at hn
    unfold Data.step
    dsimp only
    have k0 : ¬x / 8 = 0 := by omega
    have k1 : ¬(x / 8 = 1 ∧ x % 8 = 0) := by omega
    have k2 : ¬(x / 8 = 2 ∧ x % 8 = 2) := by omega
    have k3 : ¬(x / 8 = 3 ∧ x % 8 = 0) := by omega
    have k4 : ¬(x / 8 = 4 ∧ x % 8 = 0) := by omega
    have k5 : ¬(x / 8 = 4 ∧ x % 8 = 2) := by omega
    have k6 : ¬(x / 8 = 5 ∧ x % 8 = 0) := by omega
    have k7 : ¬(x / 8 = 6 ∧ x % 8 = 0) := by omega
    rw [if_neg k0, if_neg k1, if_neg k2, if_neg k3, if_neg k4, if_neg k5, if_neg k6, if_neg k7, skipField_iff.mpr ⟨p, rfl, hp⟩]
    simp [bind, Except.bind, pure, Except.pure, applyI, encVarint_leb hx]

theorem loop_sound : ∀ (f : Nat) (m m' : Data) (b : Bytes), Data.loop f m b = .ok m' → ∃ is, Items is b ∧ m' = is.foldl applyI m := by
  intro f
  induction f with
  | zero =>
    intro m m' b h
    cases b with
    | nil => simp only [Data.loop, Except.ok.injEq] at h; exact ⟨[], .nil, h.symm⟩
    | cons => simp [Data.loop] at h
  | succ f ih =>
    intro m m' b h
    cases b with
    | nil => simp only [Data.loop, Except.ok.injEq] at h; exact ⟨[], .nil, h.symm⟩
    | cons y ys =>
      simp only [Data.loop] at h
      split at h
      · cases h
      next x r e =>
        obtain ⟨key, hb, hk⟩ := decVarint_iff.mp e
        split at h
        · cases h
        next m1 r1 e1 =>
          obtain ⟨i, p, rfl, hp, rfl⟩ := step_pay hk.2.2 e1
          obtain ⟨is, his, hm⟩ := ih _ _ _ h
          refine ⟨i :: is, ?_, hm⟩
          rw [hb, ← List.append_assoc]
          exact .cons (itemBytes_iff.mpr ⟨x, key, p, hk, rfl, hp⟩) his

theorem loop_complete {is : List Item} {b : Bytes} (h : Items is b) : ∀ (f : Nat) (m : Data), b.length ≤ f → Data.loop f m b = .ok (is.foldl applyI m) := by
  induction h with
  | nil => intro f m _; cases f <;> rfl
  | @cons i is bs rest hi _ ih =>
    intro f m hl
    obtain ⟨x, key, p, hk, rfl, hp⟩ := itemBytes_iff.mp hi
    have hpos := List.length_pos_iff.mpr hk.ne_nil
    simp only [List.length_append] at hl
    obtain ⟨f, rfl⟩ : ∃ f', f = f' + 1 := ⟨f - 1, by omega⟩
    obtain ⟨y, ys, hy⟩ : ∃ y ys, key ++ p ++ rest = y :: ys := by
      cases key with
      | nil => simp at hpos
      | cons y ys => exact ⟨y, _, rfl⟩
    rw [hy]
    simp only [Data.loop]
    rw [← hy, List.append_assoc, hk.dec]
    simp only [pay_step hk.2.2 hp]
    exact ih f _ (by omega)

/-- A message is accepted when it is in the grammar and has a type. -/
theorem unmarshal_iff {b : Bytes} {d : Data} : Data.unmarshal b = .ok d ↔ ∃ is, Items is b ∧ (∃ v, Item.typ v ∈ is) ∧ d = meaning is := by
  have typ_iff : ∀ is, (meaning is).typ.isNone = false ↔ ∃ v, Item.typ v ∈ is := by
    intro is
    rw [show ((meaning is).typ.isNone = false) = ((meaning is).typ.isSome = true) by cases (meaning is).typ <;> simp]
    rw [show (meaning is).typ.isSome = true ↔ is.filterMap Item.typ? ≠ [] by
      simp only [meaning, Option.isSome_map, lastOf, Option.isSome_iff_ne_none, ne_eq, List.getLast?_eq_none_iff]]
    constructor
    · intro h
      obtain ⟨v, hv⟩ := List.exists_mem_of_ne_nil _ h
      obtain ⟨i, hi, e⟩ := List.mem_filterMap.mp hv
      cases i <;> simp [Item.typ?] at e
      exact ⟨_, hi⟩
    · rintro ⟨v, hv⟩ h0
      have : v ∈ is.filterMap Item.typ? := List.mem_filterMap.mpr ⟨_, hv, rfl⟩
      rw [h0] at this; simp at this
  have nil : ({} : Data) = meaning [] := rfl
  unfold Data.unmarshal
  constructor
  · intro h
    split at h
    · cases h
    next m e =>
      split at h
      · cases h
      next ht =>
        cases h
        obtain ⟨is, his, hm⟩ := loop_sound _ _ _ _ e
        rw [nil, meaning_foldl, List.nil_append] at hm
        exact ⟨is, his, (typ_iff is).mp (by rw [← hm]; exact Bool.not_eq_true _ ▸ ht), hm⟩
  · rintro ⟨is, his, ht, rfl⟩
    rw [loop_complete his _ _ (Nat.le_refl _), nil, meaning_foldl, List.nil_append]
    simp only [(typ_iff is).mpr ht]
    rfl

/-! ## The metadata message -/

/-- The effect of a field of the metadata message. -/
def applyM (m : MetadataMsg) : MetaItem → MetadataMsg
  | .mime d => { m with mimeType := some d }
  | .unknown x p => { m with unrec := m.unrec ++ (Spec.leb x ++ p) }

/-- What follows the key `x` of the field `i` of the metadata message. -/
inductive MPay : Nat → MetaItem → Bytes → Prop
  | mime {len d : Bytes} : V64 d.length len → MPay 10 (.mime d) (len ++ d)
  | unknown {p : Bytes} {x : Nat} : 8 ≤ x → x ≠ 10 → Payload (x % 8) p → MPay x (.unknown x p) p

theorem metaBytes_iff {i : MetaItem} {bs : Bytes} : MetaBytes i bs ↔ ∃ x key p, V64 x key ∧ bs = key ++ p ∧ MPay x i p := by
  constructor
  · intro h
    cases h with
    | mime h1 h2 => exact ⟨_, _, _, h1, rfl, .mime h2⟩
    | unknown h1 h2 h3 h4 => exact ⟨_, _, _, h1, rfl, .unknown h2 h3 h4⟩
  · rintro ⟨x, key, p, h, rfl, hp⟩
    cases hp with
    | mime h2 => exact .mime h h2
    | unknown h2 h3 h4 => exact .unknown h h2 h3 h4

theorem mstep_pay {m m' : MetadataMsg} {x : Nat} {b r : Bytes} (hx : x < 2 ^ 64) (h : m.step x b = .ok (m', r)) :
    ∃ i p, b = p ++ r ∧ MPay x i p ∧ m' = applyM m i := by
  unfold MetadataMsg.step at h
  dsimp only at h
  by_cases h0 : x / 8 = 0
  · rw [if_pos h0] at h; cases h
  rw [if_neg h0] at h
  by_cases h1 : x / 8 = 1 ∧ x % 8 = 2
  · obtain rfl : x = 10 := by omega
    rw [if_pos h1] at h
    split at h
    · cases h
    next d s e =>
      cases h
      obtain ⟨len, hb, hv⟩ := decBytes_iff.mp e
      exact ⟨.mime d, _, hb, .mime hv, rfl⟩
  rw [if_neg h1] at h
  cases e : skipField (x % 8) b with
  | error e' => rw [e] at h; simp [bind, Except.bind] at h
  | ok s =>
    rw [e] at h
    simp only [bind, Except.bind, pure, Except.pure, Except.ok.injEq, Prod.mk.injEq] at h
    obtain ⟨h, rfl⟩ := h
    obtain ⟨p, rfl, hp⟩ := skipField_iff.mp e
    refine ⟨.unknown x p, p, rfl, .unknown (by omega) (by omega) hp, ?_⟩
    rw [← h, encVarint_leb hx]
    simp [applyM]

theorem pay_mstep {m : MetadataMsg} {x : Nat} {i : MetaItem} {p r : Bytes} (hx : x < 2 ^ 64) (h : MPay x i p) : m.step x (p ++ r) = .ok (applyM m i, r) := by
  cases h with
  | mime hv => simp only [MetadataMsg.step, decBytes_iff.mpr ⟨_, rfl, hv⟩]; norm_num [applyM]
  | unknown h8 hn hp =>
    unfold MetadataMsg.step
    dsimp only
    have k0 : ¬x / 8 = 0 := by omega
    have k1 : ¬(x / 8 = 1 ∧ x % 8 = 2) := by omega
    rw [if_neg k0, if_neg k1, skipField_iff.mpr ⟨p, rfl, hp⟩]
    simp [bind, Except.bind, pure, Except.pure, applyM, encVarint_leb hx]

theorem mloop_sound : ∀ (f : Nat) (m m' : MetadataMsg) (b : Bytes), MetadataMsg.loop f m b = .ok m' → ∃ is, MetaItems is b ∧ m' = is.foldl applyM m := by
  intro f
  induction f with
  | zero =>
    intro m m' b h
    cases b with
    | nil => simp only [MetadataMsg.loop, Except.ok.injEq] at h; exact ⟨[], .nil, h.symm⟩
    | cons => simp [MetadataMsg.loop] at h
  | succ f ih =>
    intro m m' b h
    cases b with
    | nil => simp only [MetadataMsg.loop, Except.ok.injEq] at h; exact ⟨[], .nil, h.symm⟩
    | cons y ys =>
      simp only [MetadataMsg.loop] at h
      split at h
      · cases h
      next x r e =>
        obtain ⟨key, hb, hk⟩ := decVarint_iff.mp e
        split at h
        · cases h
        next m1 r1 e1 =>
          obtain ⟨i, p, rfl, hp, rfl⟩ := mstep_pay hk.2.2 e1
          obtain ⟨is, his, hm⟩ := ih _ _ _ h
          refine ⟨i :: is, ?_, hm⟩
          rw [hb, ← List.append_assoc]
          exact .cons (metaBytes_iff.mpr ⟨x, key, p, hk, rfl, hp⟩) his

theorem mloop_complete {is : List MetaItem} {b : Bytes} (h : MetaItems is b) : ∀ (f : Nat) (m : MetadataMsg), b.length ≤ f → MetadataMsg.loop f m b = .ok (is.foldl applyM m) := by
  induction h with
  | nil => intro f m _; cases f <;> rfl
  | @cons i is bs rest hi _ ih =>
    intro f m hl
    obtain ⟨x, key, p, hk, rfl, hp⟩ := metaBytes_iff.mp hi
    have hpos := List.length_pos_iff.mpr hk.ne_nil
    simp only [List.length_append] at hl
    obtain ⟨f, rfl⟩ : ∃ f', f = f' + 1 := ⟨f - 1, by omega⟩
    obtain ⟨y, ys, hy⟩ : ∃ y ys, key ++ p ++ rest = y :: ys := by
      cases key with
      | nil => simp at hpos
      | cons y ys => exact ⟨y, _, rfl⟩
    rw [hy]
    simp only [MetadataMsg.loop]
    rw [← hy, List.append_assoc, hk.dec]
    simp only [pay_mstep hk.2.2 hp]
    exact ih f _ (by omega)

theorem applyM_mime (is : List MetaItem) : ∀ (m : MetadataMsg), (is.foldl applyM m).mimeType = ((is.filterMap MetaItem.mime?).getLast?).or m.mimeType := by
  induction is with
  | nil => intro m; rfl
  | cons i is ih =>
    intro m
    rw [List.foldl_cons, ih]
    cases i with
    | unknown x p => rfl
    | mime d =>
      simp only [applyM, List.filterMap_cons, MetaItem.mime?]
      cases h : List.filterMap MetaItem.mime? is with
      | nil => simp
      | cons a l => rw [List.getLast?_cons_cons]; simp [List.getLast?_eq_some_getLast]

theorem munmarshal_iff {b : Bytes} {m : Bytes} : (∃ p, MetadataMsg.unmarshal b = .ok p ∧ p.mimeType.getD [] = m) ↔ ∃ is, MetaItems is b ∧ m = ((is.filterMap MetaItem.mime?).getLast?).getD [] := by
  unfold MetadataMsg.unmarshal
  constructor
  · rintro ⟨p, h, rfl⟩
    obtain ⟨is, his, rfl⟩ := mloop_sound _ _ _ _ h
    exact ⟨is, his, by rw [applyM_mime]; simp⟩
  · rintro ⟨is, his, rfl⟩
    exact ⟨_, mloop_complete his _ _ (Nat.le_refl _), by rw [applyM_mime]; simp⟩

end Unixfs.Pb
