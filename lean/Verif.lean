import Verif.SegmentTree.Props
import Verif.Channel.Keys
import Verif.Channel.Chunk
import Verif.Channel.Delivery
import Verif.Channel.SenderProps
import Verif.Channel.CloseProps
import Verif.Link.CollectiveProps
import Verif.Link.ContextProps
import Verif.Cuckoo.Props
import Verif.Parallel.Props
import Verif.ThreadPool.Props
import Verif.Int128.Props
import Verif.Matrix.Props
import Verif.Matrix.AvxProps
import Verif.Msgpack.Props
import Verif.Circuit.ExecProps
import Verif.Circuit.ReaderProps
import Verif.Buffer.Props
import Verif.IO.Kv
import Verif.IO.CsvColumns
import Verif.Kernel.OtStore
import Verif.Math.Gadget
import Verif.Gf.Hash
import Verif.Gf.ItemRun
import Verif.Gf.FieldLibProps
import Verif.Crypto.PrgProps
import Verif.Kernel.Sgrr
import Verif.Kernel.Kkrt
import Verif.Kernel.MpVole
import Verif.Kernel.LinearCode
import Verif.Kernel.SilentVole
import Verif.Fss.Dpf
import Verif.Fss.Dcf
import Verif.Fss.Pprf
import Verif.Vss.Props
import Verif.Vss.Tpre
import Verif.Vss.TpreEnd
import Verif.Vss.Secrecy
import Verif.Crypto.HashObjProps
import Verif.BigInt.FrontProps
import Verif.Link.Brpc
import Verif.Link.BrpcProps
import Verif.Crypto.Pkey
import Verif.Crypto.PkeyProps
import Verif.Crypto.Pqc
import Verif.Crypto.PqcProps
import Verif.Vss.Kdf
import Verif.Zkp.Sumcheck
import Verif.Zkp.Checks
import Verif.Zkp.MatMul
import Verif.Zkp.LogUp
import Verif.Link.ChannelMem
import Verif.Sse.TSet
import Verif.Drbg.SyncDrbg
import Verif.Drbg.Gm
import Verif.Drbg.Rand
import Verif.Bitset.Props
import Verif.MpInt.Props
import Verif.MpInt.PrimeRun
import Verif.Zkp.Bp.Sound
import Verif.Zkp.Bp.IpaRun
import Verif.Zkp.Bp.Range
import Verif.Zkp.Bp.RangeVerify
import Verif.Zkp.Bp.RangeRun
import Verif.Oprf.Run
import Verif.Ecc.Predefined
import Verif.Ecc.MontgomeryRun
import Verif.Kernel.SoftspokenLeak
import Verif.Kernel.FerretNoise
import Verif.Kernel.OtKernelProps
import Verif.Crypto.CrHashProps
import Verif.Crypto.BlockCipher
import Verif.Crypto.BlockCipherProps
import Verif.Crypto.AeadProps
import Verif.Ecc.NistPrimes
import Verif.Ecc.HashToCurve
import Verif.Ecc.HashToField
import Verif.Ecc.Sswu
import Verif.Ecc.SswuSuites
import Verif.Ecc.NistHash
import Verif.Ecc.NistCurves
import Verif.Ecc.HashToCurveMain
import Verif.Ecc.Elligator
import Verif.Ecc.Curve25519
import Verif.Sse.Expr
import Verif.Sse.Search
import Verif.Sse.Persist
import Verif.Utils.Spi
import Verif.BigInt.PowTable
import Verif.BigInt.GmpMont
import Verif.BigInt.LibMont
import Verif.BigInt.Backends
import Verif.BigInt.BackendsProps
import Verif.BigInt.BackendsArith
import Verif.Link.Blackbox
import Verif.Link.BlackboxEnv
import Verif.Kernel.BaseOt
import Verif.Zkp.Bp.R1csModel
import Verif.Zkp.Bp.R1csCircuit
import Verif.Zkp.Bp.R1cs
import Verif.Zkp.Bp.R1csRun
import Verif.Zkp.Bp.Bytes
import Verif.Zkp.Bp.BytesProps
import Verif.Kernel.SilverModel
import Verif.Kernel.SilverLemmas
import Verif.Kernel.Silver
import Verif.Kernel.SilentVoleSilver
import Verif.Kernel.SvoleKernel
import Verif.Kernel.OtMock
import Verif.Zkp.Bp.R1csSound
import Verif.Aes.Props
import Verif.Ecc.OpensslRun
import Verif.Ecc.Ed25519Run
import Verif.Ecc.Ristretto
import Verif.Ecc.RistrettoProps
import Verif.Ecc.CurveNamesRun
import Verif.Ecc.MclModel
import Verif.Ecc.MclProps
import Verif.Ecc.FourQModel
import Verif.Ecc.FourQProps
import Verif.Ecc.PairingModel
import Verif.Ecc.PairingProps
import Verif.Kernel.KosHiding
import Verif.Link.DescProps
import Verif.Link.MemSessions
import Verif.Zkp.Bp.Transcript
import Verif.Utils.BitsModel
import Verif.Utils.BitsProps
import Verif.Utils.SecParamModel
import Verif.Utils.SecParamProps
import Verif.Kernel.NoiseWeight
import Verif.Utils.Timer
import Verif.Kernel.ScriptsModel
import Verif.Kernel.Scripts
import Verif.Kernel.ScriptsPool
import Verif.Kernel.ScriptsStream
import Verif.Utils.ByteView
import Verif.Ecc.CudaPipe
import Verif.Ecc.CudaField
import Verif.Ecc.CudaPoint
import Verif.Ecc.CudaScalar
import Verif.Ecc.CudaInv
import Verif.Ecc.CudaScan
import Verif.Ecc.CudaKernel
import Verif.Ecc.CudaWorkspace
import Verif.Ecc.CudaSm3
import Verif.Ecc.CudaHash
