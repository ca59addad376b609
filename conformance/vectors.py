"""Write /tmp/T.lean, which runs the model on the vectors of src/test_vectors/test_bls.yml.
Run it with `lake env lean /tmp/T.lean` in /verif/lean (about three minutes). Every line prints
`some true`, except the ninth (a wrong message: `some false`) and the last (a SHA-256 digest)."""
import re
from keccak import keccak256
y=open('/repo/src/test_vectors/test_bls.yml').read()
msgs=[]
def L(h): b=bytes.fromhex(h); return "["+",".join(map(str,b))+"]"
o=['import Verif.Model.Api','open Amcl Amcl.utils']
def hk(msg,d,s): return (b'\0'*16+keccak256(bytes.fromhex(msg)+d.to_bytes(8,'big')+bytes([s]))).hex()
c3=re.search(r'case03.*?(?=case04)',y,re.S).group(0)
for m in re.finditer(r"input: '0x(\w+)', output: '0x(\w+)'",c3):
    o.append(f'#eval (do let sk ← SecretKey.from_bytes {L(m[1].zfill(96))}; match sk with | .ok sk => (do let pk ← PublicKey.from_secret_key sk; return decide ((← pk.as_bytes) = {L(m[2])})) | _ => none : Option Bool)')
    o.append(f'#eval (do let pk ← PublicKey.from_bytes {L(m[2])}; match pk with | .ok pk => (do return decide ((← pk.as_bytes) = {L(m[2])})) | _ => none : Option Bool)')
c4=re.search(r'case04.*?(?=case06)',y,re.S).group(0)
n=0
for m in re.finditer(r"domain: '0x(\w+)', message: '0x(\w+)',\s+privkey: '0x(\w+)'\}\s+output: '0x(\w+)'",c4):
    d=int(m[1],16); re_=hk(m[2],d,1); im=hk(m[2],d,2)
    o.append(f'#eval (do let s ← Signature.new_hashed {L(re_)} {L(im)} ⟨← BIG.frombytes {L(m[3].zfill(96))}⟩; return decide ((← s.as_bytes) = {L(m[4])}) : Option Bool)')
    n+=1
    if n==1:
        o.append(f'#eval (do let sk : SecretKey := ⟨← BIG.frombytes {L(m[3].zfill(96))}⟩; let s ← Signature.new_hashed {L(re_)} {L(im)} sk; let pk ← PublicKey.from_secret_key sk; s.verify_hashed {L(re_)} {L(im)} pk : Option Bool)')
        o.append(f'#eval (do let sk : SecretKey := ⟨← BIG.frombytes {L(m[3].zfill(96))}⟩; let s ← Signature.new_hashed {L(re_)} {L(im)} sk; let pk ← PublicKey.from_secret_key sk; s.verify_hashed {L(re_)} {L(re_)} pk : Option Bool)')
    if n>=4: break
abc=b'abcdbcdecdefdefgefghfghighijhijkijkljklmklmnlmnomnopnopq'.hex()
o.append(f'#eval (do let t ← ({L(abc)} : List UInt8).foldlM HASH256.process HASH256.new; return (← t.hash).toList.map (fun b => (Nat.toDigits 16 b.toNat).asString) : Option (List String))')
open("/tmp/T.lean","w").write("\n".join(o)+"\n")
