# Compares what the emission functions of the model give with the generated code checked in under /repo.
# Spaces, parentheses and semicolons are ignored; package names of conversions and error texts are dropped.
import re,sys,subprocess,glob,os
HERE=os.path.dirname(os.path.abspath(__file__)); sys.path.insert(0,HERE)
from schema import Sch
def norm(s,enums=()):
    for e in sorted(enums,key=len,reverse=True):
        s=re.sub(r'(var \w+ |\|= |[\[\]\w]*\])(\w+\.)?'+re.escape(e.split('.')[-1])+r'\b',r'\1ENUM',s)
    s=re.sub(r'fmt\.Errorf\("proto: wrong wireType = %d for field (\w+)", wireType\)',r'ERRwrong\1',s)
    s=re.sub(r'fmt\.Errorf\("proto: \w+: wiretype end group for non-group"\)','ERRendgroup',s)
    s=re.sub(r'fmt\.Errorf\("proto: \w+: illegal tag %d \(wire type %d\)", fieldNum, wire\)','ERRtag',s)
    s=re.sub(r'interface\{\}\(((?:[^()]|\([^()]*\))*)\)\.\(interface ?\{\s*UnmarshalVT(?:Unsafe)?\(\[\]byte\) error\s*\}\)',lambda m:'IMPL(%s)unmarshal'%m.group(1),s)
    s=re.sub(r'//[^\n]*','',s)
    s=s.replace('structpb.','')
    s=re.sub(r'fmt\.Errorf\("proto: required field [^"]*"\)','fmt.Errorf("required")',s)
    s=re.sub(r'\(\*(\w+\.)?(\w+)\)\(',lambda m:'known(' ,s)
    s=re.sub(r'(?:interface\{\}\(([^()]*)\)|(m\.\w+))\.\(interface ?\{\s*SizeVT\(\) int\s*\}\)',lambda m:'IMPL(%s)size'%(m.group(1) or m.group(2)),s)
    s=re.sub(r'(?:interface\{\}\(([^()]*)\)|(m\.\w+))\.\(interface ?\{\s*MarshalToSizedBufferVT(?:Strict)?\(\[\]byte\) \(int, error\)\s*\}\)',lambda m:'IMPL(%s)marshal'%(m.group(1) or m.group(2)),s)
    s=re.sub(r'(?:interface\{\}\(([^()]*)\)|(this\.\w+))\.\(interface ?\{\s*EqualVT\([^()]*\) bool\s*\}\)',lambda m:'IMPL(%s)equal'%(m.group(1) or m.group(2)),s)
    s=re.sub(r'(?:interface\{\}\(([^()]*)\)|(m\.\w+))\.\(interface ?\{\s*CloneVT\(\) [*.\w]+\s*\}\)',lambda m:'IMPL(%s)clone'%(m.group(1) or m.group(2)),s)
    s=re.sub(r'proto\.Clone\((\w+)\)\.\(\*[.\w]+\)',r'proto.Clone(\1)',s)
    s=re.sub(r'tmpContainer := make\(\[\][^,]*,','tmpContainer := make([]T,',s)
    s=re.sub(r'tmpContainer := make\(map[^,]*,','tmpContainer := make(map[K]T,',s)
    s=s.replace('tmpContainer:=make([]byte,','tmpContainer:=make([]T,')
    s=re.sub(r'0x[0-9a-fA-F]+',lambda m:str(int(m.group(0),16)),s)
    s=re.sub(r'\.\(\*(\w+\.)(\w+)\)',r'.(*\2)',s)
    s=re.sub(r'case \*(\w+\.)(\w+)',r'case *\2',s)
    return re.sub(r'[\s();]','',s)
def gofuncs(fn,pat):
    out={}
    src=open(fn).read()
    for m in re.finditer(r'^func \((\w+) \*(\w+)\) (\w+)\(([^\n]*)\{\n(.*?)^\}',src,re.M|re.S):
        if re.match(pat,m.group(3)): out[(m.group(2),m.group(3))]=m.group(5)
    for m in re.finditer(r'^func (\w+)FromVTPool\(\)([^\n]*)\{\n(.*?)^\}',src,re.M|re.S):
        if re.match(pat,'FromVTPool'): out[(m.group(1),'FromVTPool')]=m.group(3)
    return out
def run(vt,wkt=set(),iu=set(),pool=set(),pb=None,pat=r'SizeVT|Marshal',main='print.lean.in',unique=False,ext={}):
    pb=pb or [f for f in glob.glob(os.path.dirname(vt)+'/*.pb.go') if not f.endswith('_vtproto.pb.go')]
    pool=pool|set(re.findall(r'^func (\w+)FromVTPool\(\)',''.join(open(f).read() for f in glob.glob(os.path.dirname(vt)+'/*_vtproto.pb.go')),re.M))
    s=Sch(pb,wkt=wkt,ignoreUnknown=iu,pool=pool,unique=unique,ext=ext)
    open('/tmp/EmitRun.lean','w').write(open(HERE+'/'+main.replace('print','head')).read()+s.lean()+open(HERE+'/'+main).read())
    r=subprocess.run(['lake','env','lean','/tmp/EmitRun.lean'],cwd=HERE+'/../../lean',capture_output=True,text=True)
    out=r.stdout
    em={}
    for part in out.split('@@ ')[1:]:
        h,_,b=part.partition('\n'); em[tuple(h.split())]=b
    if not em: print(out[:3000],r.stderr[:2000])
    go=gofuncs(vt,pat)
    ok=bad=miss=0
    for k,b in go.items():
        if k not in em: miss+=1; print('MISSING',k); continue
        x,y=norm(b,s.enums),norm(em[k],s.enums)
        if x==y: ok+=1
        else:
            bad+=1
            if bad<=int(os.environ.get('SHOW','3')):
                i=next((i for i in range(min(len(x),len(y))) if x[i]!=y[i]),min(len(x),len(y)))
                print('DIFF',k,'\n  go  :',x[max(0,i-80):i+120],'\n  lean:',y[max(0,i-80):i+120])
    print(vt,'ok',ok,'bad',bad,'missing',miss,'extra',len(set(em)-set(go)))
    return bad+miss
if __name__=='__main__':
    run(sys.argv[1],wkt=set(sys.argv[2].split(',')) if len(sys.argv)>2 else set())
