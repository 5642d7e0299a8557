import Verif.Model.MsgContext
import Verif.Spec.Tcp
/-! C10, C22 (the form of a refusal), C44 (the blocking decision). -/

namespace Verif.Msg
variable {Addr : Type}

theorem be16_value (n : Nat) (h : n < 65536) :
    ∃ a b, be16 n = [a, b] ∧ a.toNat * 256 + b.toNat = n := by
  refine ⟨_, _, rfl, ?_⟩
  simp only [UInt8.toNat_ofNat']
  omega

/-- The bytes a reply puts on a TCP stream. -/
def tcpBytes : Sent Addr → List Byte
  | .tcp _ b => b
  | .udp .. => []

/-- C10.  Whatever replies are sent one after the other to a TCP client, a client that reads a
two-byte length and then that many bytes, again and again, obtains exactly the messages, and what
follows them on the stream is left unread. -/
theorem tcp_replies_framed (ms : List (Ctx Addr)) (tail : List Byte)
    (htcp : ∀ m ∈ ms, m.back = none) (hlen : ∀ m ∈ ms, m.entity.length < 65536) :
    Tcp.readMany ms.length ((ms.map (fun m => tcpBytes (sendBack m))).flatten ++ tail) =
      some (ms.map (·.entity), tail) := by
  induction ms with
  | nil => rfl
  | cons m ms ih =>
    have h1 : sendBack m = .tcp m.sock (be16 m.entity.length ++ m.entity) := by
      unfold sendBack; rw [htcp m (by simp)]
    obtain ⟨a, b, hb, hv⟩ := be16_value m.entity.length (hlen m (by simp))
    have hr : ∀ t, Tcp.readOne (be16 m.entity.length ++ m.entity ++ t) = some (m.entity, t) := by
      intro t
      simp only [hb, List.cons_append, List.nil_append, Tcp.readOne, hv]
      simp
    have h2 : tcpBytes (sendBack m) = be16 m.entity.length ++ m.entity := by rw [h1]; rfl
    simp only [List.length_cons, Tcp.readMany, List.map_cons, List.flatten_cons, h2]
    rw [List.append_assoc (_ ++ _), hr]
    simp only
    rw [ih (fun m hm => htcp m (by simp [hm])) (fun m hm => hlen m (by simp [hm]))]

/-- C10.  A UDP client gets the message alone, in one datagram, at its own address. -/
theorem udp_reply_plain (m : Ctx Addr) (a : Addr) (h : m.back = some a) (hr : m.returnHeader = false) :
    sendBack m = .udp m.sock a false m.entity := by
  unfold sendBack; rw [h, hr]

/-- C10.  A reply goes back the way the query came: on the stored socket, as a stream frame exactly
when the query came by TCP. -/
theorem reply_same_channel (m : Ctx Addr) :
    (m.back = none → ∃ b, sendBack m = .tcp m.sock b) ∧
    (∀ a, m.back = some a → ∃ b, sendBack m = .udp m.sock a m.returnHeader b) := by
  unfold sendBack
  constructor
  · intro h; exact ⟨_, by rw [h]⟩
  · intro a h; exact ⟨_, by rw [h]⟩

private theorem flag_bits : ∀ n : Fin 256,
    let b := UInt8.ofNat n
    ((setQR b).toNat.testBit 7 = true ∧ ∀ i : Fin 7, (setQR b).toNat.testBit i = b.toNat.testBit i) ∧
    ((setRAclearRcode b).toNat.testBit 7 = true ∧
      (∀ i : Fin 7, 4 ≤ i.val → (setRAclearRcode b).toNat.testBit i = b.toNat.testBit i) ∧
      (setRAclearRcode b).toNat % 16 = 0) := by decide +kernel

/-- C22.  A refusal of a message with a complete flags field differs from the query only in the
flags: response bit set, recursion-available bit set, response code 0; the ID, opcode, RD, the
counts and the question are byte for byte those of the query. -/
theorem refusal_form (e : List Byte) (h : 4 ≤ e.length) :
    (refuse e).length = e.length ∧ (refuse e).take 2 = e.take 2 ∧ (refuse e).drop 4 = e.drop 4 ∧
    (∃ b b', e[2]? = some b ∧ (refuse e)[2]? = some b' ∧ b'.toNat.testBit 7 = true ∧
      ∀ i < 7, b'.toNat.testBit i = b.toNat.testBit i) ∧
    (∃ b b', e[3]? = some b ∧ (refuse e)[3]? = some b' ∧ b'.toNat.testBit 7 = true ∧
      (∀ i, 4 ≤ i → i < 7 → b'.toNat.testBit i = b.toNat.testBit i) ∧ b'.toNat % 16 = 0) := by
  match e, h with
  | a :: b :: c :: d :: t, _ =>
    have hc := flag_bits ⟨c.toNat, c.toNat_lt⟩
    have hd := flag_bits ⟨d.toNat, d.toNat_lt⟩
    simp only [UInt8.ofNat_toNat] at hc hd
    refine ⟨rfl, rfl, rfl, ⟨c, setQR c, rfl, rfl, hc.1.1, ?_⟩,
      ⟨d, setRAclearRcode d, rfl, rfl, hd.2.1, ?_, hd.2.2.2⟩⟩
    · intro i hi; exact hc.1.2 ⟨i, hi⟩
    · intro i h4 hi; exact hd.2.2.1 ⟨i, hi⟩ h4

/-- C22.  A refusal goes to the client that asked. -/
theorem refusal_same_channel (m : Ctx Addr) :
    (m.back = none → sendBackRefused m = .tcp m.sock (be16 (refuse m.entity).length ++ refuse m.entity)) ∧
    (∀ a, m.back = some a → sendBackRefused m = .udp m.sock a m.returnHeader (refuse m.entity)) := by
  unfold sendBackRefused sendBack
  constructor
  · intro h; simp [h]
  · intro a h; simp [h]

/-- Non-vacuity: two replies on one TCP connection and a refusal of a real query. -/
example :
    let m1 : Ctx Nat := ⟨none, 5, str "a.b", 0, 1, false, false, [], [1, 2, 3]⟩
    let m2 : Ctx Nat := ⟨none, 5, str "a.b", 0, 1, false, false, [], List.replicate 300 7⟩
    Tcp.readMany 2 (tcpBytes (sendBack m1) ++ tcpBytes (sendBack m2)) =
      some ([[1, 2, 3], List.replicate 300 7], []) := by decide +kernel

example : refuse [0x12, 0x34, 0x01, 0x05, 0, 1, 0, 0] = [0x12, 0x34, 0x81, 0x80, 0, 1, 0, 0] := by
  decide +kernel

end Verif.Msg
