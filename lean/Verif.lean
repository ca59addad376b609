import Verif.Model.Machine
import Verif.Model.Rom
import Verif.Model.Big
import Verif.Model.Fp
import Verif.Model.Fp2
import Verif.Model.Window
import Verif.Model.Ecp
import Verif.Model.Ecp2
import Verif.Model.Fp4
import Verif.Model.Fp12
import Verif.Model.Pair
import Verif.Model.Hash256
import Verif.Model.Rand
import Verif.Model.Utils
import Verif.Model.Api
import Verif.Proof.Dbig
import Verif.Proof.Fp
import Verif.Proof.Fp2Sqrt
import Verif.Proof.EcpMul
import Verif.Proof.Ecp2Mul
import Verif.Spec.Groups
import Verif.Proof.Orders
import Verif.Props.Keys
import Verif.Props.Aggregates
import Verif.Props.SignBit
import Verif.Props.Codec1
import Verif.Props.Codec2
import Verif.Props.Equality
import Verif.Props.Hash
import Verif.Props.Cofactor
import Verif.Props.Sha256
import Verif.Props.Random
import Verif.Props.Field
import Verif.Proof.Fexp
import Verif.Proof.Reciprocity
import Verif.Props.NoPanic
import Verif.Props.Protocol
import Verif.Props.BigArith
import Verif.Props.Endo
import Verif.Props.Sha512
import Verif.Props.Ate2
import Verif.Props.EcpCodec
import Verif.Props.Mapit1
import Verif.Props.Ecp2Codec
import Verif.Model.Xtr
import Verif.Spec.Trace
import Verif.Proof.Sat
import Verif.Proof.Xtr
import Verif.Proof.Compow
import Verif.Props.Xtr
import Verif.Model.Fp12More
import Verif.Spec.Octets12
import Verif.Proof.Fp12More
import Verif.Props.Octets12
import Verif.Model.Mpin
import Verif.Spec.Mpin
import Verif.Proof.Mpin
import Verif.Props.Mpin
import Verif.Spec.MpinKey
import Verif.Proof.MpinKey
import Verif.Props.MpinKey
import Verif.Spec.Kangaroo
import Verif.Proof.Kangaroo
import Verif.Props.Kangaroo
import Verif.Spec.MpinCode
import Verif.Proof.MpinCode
import Verif.Props.MpinCode
import Verif.Model.Fp4More
import Verif.Proof.Fp4More
import Verif.Props.Tower
import Verif.Model.Sha3
import Verif.Spec.Sha3
import Verif.Proof.Sha3
import Verif.Props.Sha3
import Verif.Model.Aes
import Verif.Spec.Aes
import Verif.Proof.Aes
import Verif.Proof.AesInv
import Verif.Proof.AesKey
import Verif.Props.Aes
import Verif.Spec.Modes
import Verif.Proof.AesModes
import Verif.Props.AesModes
import Verif.Model.Gcm
import Verif.Spec.Gcm
import Verif.Proof.GcmMul
import Verif.Proof.Gcm
import Verif.Props.Gcm
import Verif.Model.Nhs
import Verif.Spec.Nhs
import Verif.Proof.NhsNtt
import Verif.Proof.NhsRoots
import Verif.Proof.NhsTransform
import Verif.Proof.NhsRing
import Verif.Proof.NhsCode
import Verif.Proof.NhsCode2
import Verif.Proof.NhsCode3
import Verif.Proof.NhsParts
import Verif.Proof.Nhs
import Verif.Props.Nhs
import Verif.Model.Ecdh
import Verif.Spec.Ecdh
import Verif.Proof.Ecdh
import Verif.Proof.EcdhPb
import Verif.Props.Ecdh
import Verif.Spec.CbcPad
import Verif.Proof.EcdhCbc
import Verif.Props.EcdhCbc
import Verif.Proof.Secp.Ecdh
import Verif.Proof.Secp.Ecdsa
import Verif.Spec.Secp.Ecdsa
import Verif.Props.SecpCurve
import Verif.Proof.Secp.EcdhShort
import Verif.Props.SecpEcdh
import Verif.Spec.Secp.Ecies
import Verif.Props.SecpEcies
import Verif.Model.Show
import Verif.Spec.Hex
import Verif.Proof.Show
import Verif.Props.Show
import Verif.Model.BigRest
import Verif.Proof.BigRest
import Verif.Props.BigRest
import Verif.Spec.Montgomery
import Verif.Model.Dadd
import Verif.Props.Dadd
import Verif.Props.Vectors
import Verif.Proof.BigJacobi
import Verif.Proof.B383.Points
import Verif.Props.B383Curve
import Verif.Proof.B383.Aff
import Verif.Proof.B383.Fp4More
import Verif.Props.B383Pairing
import Verif.Props.B383Tower
import Verif.Proof.B383.Ate2
import Verif.Proof.B383.Gtpow
import Verif.Props.B383Endo
import Verif.Props.B383Ate2
import Verif.Proof.Bytes48
import Verif.Proof.B383.Codec1
import Verif.Proof.B383.EcpMore
import Verif.Proof.B383.EcpCodec
import Verif.Proof.B383.Mapit1
import Verif.Proof.B383.Codec2
import Verif.Proof.B383.Ecp2More
import Verif.Proof.B383.Fp12More
import Verif.Props.B383Codec
import Verif.Proof.Manin
import Verif.Proof.ManinFrob
import Verif.Proof.B383.Clear
import Verif.Props.B383Mapit
import Verif.Spec.B383.Trace
import Verif.Proof.B383.Wide
import Verif.Proof.B383.Sat
import Verif.Proof.B383.Xtr
import Verif.Proof.B383.Compow
import Verif.Props.B383Xtr
import Verif.Model.B383.Mpin
import Verif.Spec.B383.Mpin
import Verif.Proof.B383.Mpin
import Verif.Props.B383Mpin
import Verif.Spec.B383.MpinKey
import Verif.Proof.B383.MpinKey
import Verif.Props.B383MpinKey
import Verif.Spec.B383.Kangaroo
import Verif.Proof.B383.Kangaroo
import Verif.Props.B383Kangaroo
import Verif.Spec.B383.MpinCode
import Verif.Proof.B383.MpinCode
import Verif.Props.B383MpinCode
import Verif.Spec.MpinShare
import Verif.Props.MpinShare
import Verif.Spec.B383.MpinShare
import Verif.Props.B383MpinShare
import Verif.Spec.Secp.MapToCurve
import Verif.Model.Secp.EcpRest
import Verif.Proof.Secp.EcpRest
import Verif.Proof.Secp.Mulx
import Verif.Props.SecpMapit
import Verif.Props.SecpDadd
import Verif.Model.Secp.BigRest
import Verif.Proof.Secp.BigWords
import Verif.Proof.Secp.BigRest
import Verif.Proof.Secp.Show
import Verif.Proof.BigOr
import Verif.Props.SecpBig
import Verif.Proof.Frob
import Verif.Proof.EndoExact
import Verif.Proof.B383.EndoExact
import Verif.Proof.GtpowExact
import Verif.Proof.B383.GtpowExact
import Verif.Props.EndoExact
import Verif.Props.B383EndoExact
import Verif.Proof.SigOutside
import Verif.Props.SigOutside
import Verif.Props.Agree
import Verif.Props.InfPoint
import Verif.Props.Related
import Verif.Proof.PairNeg
import Verif.Props.Opposite
import Verif.Props.Members
